import Verif.Props.ReadLogical
import Verif.Props.Rounds

/-!
# C57, C143: sequences of measurements with one ancilla that is never reset

On an engine with `n + 1` qubits `single_syndrome_measurement` uses the last qubit as it is.  Whatever is measured, and on
whatever state, the results are those of measurements with fresh ancillas, added up.
-/

namespace PyQ

open Spec

variable {k : ℕ}

/-- A sequence of calls of `single_syndrome_measurement` on an engine with `n + 1` qubits: the results, the probability of these
results, and the state of all `n + 1` qubits that remains. (codes.py 359-432) -/
inductive SharedReadings (c : StabCode) : Amp (c.n + 1) → List StabArg → List (ZMod 2) → ℝ → Amp (c.n + 1) → Prop
  | nil (Ψ : Amp (c.n + 1)) : SharedReadings c Ψ [] [] 1 Ψ
  | cons {Ψ Ψ' : Amp (c.n + 1)} {s : StabArg} {ss : List StabArg} {r : ZMod 2} {rs : List (ZMod 2)} {p : ℝ}
      {gs : List Gate} {q : ℕ} :
      syndromeCircuit c (c.n + 1) (c.n + 1) s = .ok (gs, q) → measProb q r (run gs Ψ) ≠ 0 →
      SharedReadings c (collapse q r (run gs Ψ)) ss rs p Ψ' →
      SharedReadings c Ψ (s :: ss) (r :: rs) (measProb q r (run gs Ψ) * p) Ψ'

/-- One measurement with the ancilla in state `a`, against one with a fresh ancilla. -/
theorem unreset_step {c : StabCode} {s : StabArg} (hs : s.Valid c.n) :
    ∃ gs gs', syndromeCircuit c (c.n + 1) (c.n + 1) s = .ok (gs, c.n) ∧ syndromeCircuit c c.n c.n s = .ok (gs', c.n) ∧
      ∀ (φ : Amp c.n) (a r : ZMod 2), ∃ φ', measProb c.n r (run gs (tensor φ (qubit a))) =
          measProb c.n (r + a) (run gs' (tensor φ (qubit 0))) ∧
        collapse c.n r (run gs (tensor φ (qubit a))) = tensor φ' (qubit r) ∧
        collapse c.n (r + a) (run gs' (tensor φ (qubit 0))) = tensor φ' (qubit (r + a)) := by
  obtain ⟨gs, h1, h2⟩ := syndromeCircuit_part (c := c) (Or.inr ⟨rfl, rfl⟩) hs
  obtain ⟨gs', h1', h2'⟩ := syndromeCircuit_part (c := c) (Or.inl ⟨rfl, rfl⟩) hs
  refine ⟨gs, gs', h1, h1', fun φ a r => ⟨((Real.sqrt (normSq (part (s.pauli c.n) (r + a) φ)) : ℝ) : ℂ)⁻¹ •
    part (s.pauli c.n) (r + a) φ, ?_, ?_, ?_⟩⟩
  all_goals
    first | rw [h2 φ a] | skip
    first | rw [h2' φ 0] | skip
    first | rw [measProb_branches, measProb_branches] | rw [collapse_branches]
    rcases zmod2_cases a with rfl | rfl <;> rcases zmod2_cases r with rfl | rfl <;>
      simp [show (1 : ZMod 2) + 1 = 0 from by decide]

/-- **C57, an ancilla that is not reset**.  Any sequence of operators is measured on an engine with `n + 1` qubits, starting from
any state `φ` of the register and the value `a` of the last qubit.  The results, their probability and the final state are
those of the same operators measured with fresh ancillas, where each single result is the change from one result to the
next; the last qubit ends with the last result.  (Operators may contain any number of Y's here.) -/
theorem C57_unreset (c : StabCode) (ss : List StabArg) (hs : ∀ s ∈ ss, s.Valid c.n) (φ : Amp c.n) (a : ZMod 2)
    (rs : List (ZMod 2)) (p : ℝ) (Ψ : Amp (c.n + 1)) :
    SharedReadings c (tensor φ (qubit a)) ss rs p Ψ ↔
      ∃ φ', Readings c φ ss (changes a rs) p φ' ∧ Ψ = tensor φ' (qubit (rs.getLastD a)) := by
  induction ss generalizing φ a rs p with
  | nil =>
    constructor
    · intro h
      cases h
      exact ⟨φ, Readings.nil φ, rfl⟩
    · rintro ⟨φ', h, rfl⟩
      cases rs with
      | nil =>
        cases h
        exact SharedReadings.nil _
      | cons r rs => cases h
  | cons s ss ih =>
    obtain ⟨gs, gs', h1, h1', hstep⟩ := unreset_step (c := c) (hs s List.mem_cons_self)
    have hss : ∀ s ∈ ss, s.Valid c.n := fun t ht => hs t (List.mem_cons_of_mem _ ht)
    cases rs with
    | nil =>
      constructor
      · intro h
        cases h
      · rintro ⟨φ', h, -⟩
        cases h
    | cons r rs =>
      obtain ⟨χ, e1, e2, e3⟩ := hstep φ a r
      have hlast : (r :: rs).getLastD a = rs.getLastD r := by
        cases rs <;> rfl
      rw [hlast]
      constructor
      · intro h
        cases h with
        | @cons _ _ _ _ _ _ p' gs0 q g1 g2 g3 =>
          rw [h1] at g1
          cases g1
          rw [e2] at g3
          obtain ⟨φ', f1, f2⟩ := (ih hss χ r rs p').mp g3
          refine ⟨φ', ?_, f2⟩
          rw [e1] at g2 ⊢
          exact Readings.cons h1' g2 e3 f1
      · rintro ⟨φ', h, rfl⟩
        cases h with
        | @cons _ χ' _ _ _ _ _ p' gs0 q g1 g2 g3 g4 =>
          rw [h1'] at g1
          cases g1
          rw [e3] at g3
          have e := tensor_qubit_inj g3
          subst e
          rw [← e1] at g2 ⊢
          refine SharedReadings.cons h1 g2 ?_
          rw [e2]
          exact (ih hss χ r rs p').mpr ⟨φ', g4, rfl⟩

/-- **C143, with an ancilla that is not reset**.  Encode any state, let any Pauli error `E` happen, and measure logical Z
operators with the last of `n + 1` qubits, which holds `a` and is never reset.  Then it is the changes from one result to the
next that are the bits of the logical qubits, flipped by the error. -/
theorem C143_read_unreset (s : StabInput) (c : StabCode) (h : stabInit s c.n k none = .ok c) (hb : BinaryArr c.stab) :
    ∃ enc : (Fin k → ZMod 2) → List Gate, (∀ δ, encodingCircuit c c.n (bitsList δ) = .ok (enc δ)) ∧
      ∀ (E : Pauli c.n) (α : (Fin k → ZMod 2) → ℂ), Normalised α → ∀ (a : ZMod 2) (is : List (Fin k)) rs p Ψ,
        let agrees := fun δ : Fin k → ZMod 2 =>
          (is.map fun i => δ i + symp (rowPauli c.n (c.logicalZ.row i)) E) = changes a rs
        SharedReadings c (tensor (pauliAct E (∑ δ, α δ • (run (enc δ) (ket 0) : Amp c.n))) (qubit a))
            (is.map fun i : Fin k => .bin (c.logicalZ.row i)) rs p Ψ ↔
          p = (∑ δ, if agrees δ then Complex.normSq (α δ) else 0) ∧ p ≠ 0 ∧
          Ψ = tensor (((Real.sqrt p : ℝ) : ℂ)⁻¹ •
            pauliAct E (∑ δ, (if agrees δ then α δ else 0) • (run (enc δ) (ket 0) : Amp c.n))) (qubit (rs.getLastD a)) := by
  obtain ⟨enc, g1, g2⟩ := C143_read s c h hb
  obtain ⟨_, _, _, g3⟩ := logicalZ_family h hb
  refine ⟨enc, g1, fun E α hα a is rs p Ψ => ?_⟩
  intro agrees
  rw [C57_unreset c _ (by
    intro t ht
    obtain ⟨i, -, rfl⟩ := List.mem_map.mp ht
    exact ⟨(g3 i).1, (g3 i).2.1⟩)]
  constructor
  · rintro ⟨φ', f1, f2⟩
    obtain ⟨q1, q2, q3⟩ := (g2 E α hα is _ p φ').mp f1
    exact ⟨q1, q2, by rw [f2, q3]⟩
  · rintro ⟨q1, q2, q3⟩
    exact ⟨_, (g2 E α hα is _ p _).mpr ⟨q1, q2, rfl⟩, q3⟩

/-- Concrete case: the encoded one of the five-qubit code, and an ancilla that holds 1.  Measuring the logical Z operator twice
gives first 0 and then 1, with certainty, although the logical qubit is 1 all the time. -/
example : ∃ c enc, stabInit (.rows fiveRows) 5 1 none = .ok c ∧ encodingCircuit c c.n [1] = .ok enc ∧
    SharedReadings c (tensor (run enc (ket 0)) (qubit 1)) [.bin (c.logicalZ.row 0), .bin (c.logicalZ.row 0)] [0, 1] 1
      (tensor (run enc (ket 0)) (qubit 1)) := by
  obtain ⟨c, h, hb, -⟩ := five_code
  have hn : c.n = 5 := (accepted_weak h hb).1
  have h' : stabInit (.rows fiveRows) c.n 1 none = .ok c := by rw [hn]; exact h
  obtain ⟨enc, g1, g2⟩ := C143_read_unreset _ c h' hb
  have hα : Normalised (ket (fun _ => 1) : (Fin 1 → ZMod 2) → ℂ) := by
    show normSq _ = 1
    unfold normSq ket
    simp
  have key := g2 ⟨0, 0⟩ (ket fun _ => 1) hα 1 [0, 0] [0, 1] 1 (tensor (run (enc fun _ => 1) (ket 0)) (qubit 1))
  have hz : ∀ i : Fin 1, symp (rowPauli c.n (c.logicalZ.row i)) (⟨0, 0⟩ : Pauli c.n) = 0 := by
    intro i
    simp [symp, dotp]
  have hsum : ∀ f : (Fin 1 → ZMod 2) → Amp c.n,
      (∑ δ, (ket (fun _ => 1) : (Fin 1 → ZMod 2) → ℂ) δ • f δ) = f fun _ => 1 := by
    intro f
    rw [Finset.sum_eq_single (fun _ => 1)]
    · simp [ket]
    · intro δ _ hne
      simp [ket, hne]
    · intro hb
      exact absurd (Finset.mem_univ _) hb
  have hag : ∀ δ : Fin 1 → ZMod 2, (([0, 0] : List (Fin 1)).map fun i => δ i + 0) = changes 1 [0, 1] ↔ δ = fun _ => 1 := by
    intro δ
    simp only [changes, List.map_cons, List.map_nil, add_zero, zero_add, List.cons.injEq, and_true, and_self]
    exact ⟨fun e => by funext i; rw [Subsingleton.elim i 0, e], fun e => by rw [e]⟩
  simp only [pauliAct_one, hz, hag, hsum] at key
  refine ⟨c, _, h, g1 fun _ => 1, key.mpr ⟨?_, one_ne_zero, ?_⟩⟩
  · rw [Finset.sum_ite_eq' Finset.univ (fun _ : Fin 1 => (1 : ZMod 2)), if_pos (Finset.mem_univ _)]
    simp [ket]
  · rw [Finset.sum_eq_single (fun _ => 1) (fun δ _ hne => by rw [if_neg hne, zero_smul]) (fun hb => absurd (Finset.mem_univ _) hb),
      if_pos rfl]
    simp [ket]

end PyQ
