import Verif.Props.Transmission
import Verif.Props.ReadShared
import Verif.Spec.UnresetErrors

/-! # C150: measurements with errors and an ancilla that is not reset -/

namespace PyQ

open Spec

variable {n k : ℕ}

theorem sign_sq {σ : ℂ} (h : σ = 1 ∨ σ = -1) : Complex.normSq σ = 1 := by
  rcases h with rfl | rfl <;> simp

theorem sign_mul {σ τ : ℂ} (h : σ = 1 ∨ σ = -1) (h' : τ = 1 ∨ τ = -1) : σ * τ = 1 ∨ σ * τ = -1 := by
  rcases h with rfl | rfl <;> rcases h' with rfl | rfl <;> simp

theorem measProb_phase {z : ℂ} (hz : Complex.normSq z = 1) (w : ℕ) (r : ZMod 2) (Ψ : Amp n) :
    measProb w r (z • Ψ) = measProb w r Ψ := by
  unfold measProb
  simp only [Pi.smul_apply, smul_eq_mul, Complex.normSq_mul, hz, one_mul]

theorem collapse_phase {z : ℂ} (hz : Complex.normSq z = 1) (w : ℕ) (r : ZMod 2) (Ψ : Amp n) :
    collapse w r (z • Ψ) = z • collapse w r Ψ := by
  funext b
  unfold collapse
  rw [measProb_phase hz]
  show _ = z * (if bitAt b w = r then ((Real.sqrt (measProb w r Ψ) : ℝ) : ℂ)⁻¹ * Ψ b else 0)
  split_ifs
  · rw [Pi.smul_apply, smul_eq_mul]; ring
  · rw [mul_zero]

/-- The circuit is the same whether the ancilla is fresh or the last qubit of the register. -/
theorem same_circuit {c : StabCode} {s : StabArg} (hs : s.Valid c.n) :
    ∃ gs, syndromeCircuit c (c.n + 1) (c.n + 1) s = .ok (gs, c.n) ∧ syndromeCircuit c c.n c.n s = .ok (gs, c.n) ∧
      (∀ g ∈ gs, g.WF (c.n + 1) ∧ g.Plain) ∧ ∀ (φ : Amp c.n) (a : ZMod 2), run gs (tensor φ (qubit a)) =
        tensor (part (s.pauli c.n) a φ) (qubit 0) + tensor (part (s.pauli c.n) (a + 1) φ) (qubit 1) := by
  obtain ⟨gs, h1, h2⟩ := syndromeCircuit_part (c := c) (Or.inl ⟨rfl, rfl⟩) hs
  obtain ⟨gs', g1, g2, -⟩ := syndromeCircuit_spec (c := c) (active := c.n) (len := c.n) (Or.inl ⟨rfl, rfl⟩) hs
  obtain rfl : gs = gs' := (Prod.mk.inj (Except.ok.inj (h1.symm.trans g1))).1
  have hpl := C148_plain c gs (Or.inr (Or.inr (Or.inr (Or.inr ⟨_, _, _, _, h1⟩))))
  refine ⟨gs, ?_, h1, fun g hg => ⟨g2 g hg, hpl g hg⟩, h2⟩
  rw [← h1]
  cases s with
  | str s => rw [syndromeCircuit_str (Or.inr ⟨rfl, rfl⟩) hs.1 hs.2, syndromeCircuit_str (Or.inl ⟨rfl, rfl⟩) hs.1 hs.2]
  | bin b =>
    obtain ⟨s, e1, e2, e3⟩ := rowStr hs.1 hs.2
    have hle : s.length ≤ c.n := by omega
    have := (syndromeCircuit_str (c := c) (Or.inr ⟨rfl, rfl⟩) hle (binaryStr_letters e1)).trans
      (syndromeCircuit_str (c := c) (Or.inl ⟨rfl, rfl⟩) hle (binaryStr_letters e1)).symm
    have hbin : ∀ active len, syndromeCircuit c active len (.bin b) = syndromeCircuit c active len (.str s) := by
      intros; unfold syndromeCircuit; simp only [e1]
    rw [hbin, hbin]
    exact this

/-- With the ancilla in state 1 instead of 0, the two branches are exchanged, up to a common sign. -/
theorem exchanged {gs : List Gate} (hg : ∀ g ∈ gs, g.WF (n + 1) ∧ g.Plain) {S : Pauli n}
    (h : ∀ (φ : Amp n) (a : ZMod 2), run gs (tensor φ (qubit a)) =
      tensor (part S a φ) (qubit 0) + tensor (part S (a + 1) φ) (qubit 1)) (e : ℕ → Pauli (n + 1)) :
    ∃ σ : ℂ, (σ = 1 ∨ σ = -1) ∧ ∀ φ : Amp n, ∃ A B : Amp n,
      runNoisy gs e (tensor φ (qubit 0)) = tensor A (qubit 0) + tensor B (qubit 1) ∧
      runNoisy gs e (tensor φ (qubit 1)) = σ • (tensor B (qubit 0) + tensor A (qubit 1)) := by
  obtain ⟨ω, -, hω⟩ := C148_circuit gs hg e
  set Q := totalError gs e
  have hz : (sgn (ancZ Q) : ℂ) = 1 ∨ (sgn (ancZ Q) : ℂ) = -1 := by
    rcases zmod2_cases (ancZ Q) with h | h <;> rw [h]
    · left; simp [sgn]
    · right; simp [sgn]
  have hzz : (sgn (ancZ Q) : ℂ) * sgn (ancZ Q) = 1 := by rcases hz with h | h <;> rw [h] <;> norm_num
  refine ⟨sgn (ancZ Q), hz, fun φ => ?_⟩
  have two : (1 : ZMod 2) + 1 = 0 := by decide
  have s0 : (sgn (0 : ZMod 2) : ℂ) = 1 := by simp [sgn]
  have key : ∀ a, runNoisy gs e (tensor φ (qubit a)) =
      tensor (ω • pauliAct (regPart Q) (part S a φ)) (qubit (ancX Q)) +
        (sgn (ancZ Q) : ℂ) • tensor (ω • pauliAct (regPart Q) (part S (a + 1) φ)) (qubit (1 + ancX Q)) := by
    intro a
    rw [hω, h, pauliAct_add, pauliAct_split, pauliAct_split, mul_zero, mul_one, s0, one_smul, zero_add, smul_add,
      tensor_smul_left, tensor_smul_left, smul_comm ω]
  rw [key, key, zero_add, two]
  rcases zmod2_cases (ancX Q) with hx | hx <;> rw [hx]
  · refine ⟨ω • pauliAct (regPart Q) (part S 0 φ), (sgn (ancZ Q) : ℂ) • (ω • pauliAct (regPart Q) (part S 1 φ)), ?_, ?_⟩
    · rw [add_zero, tensor_smul_left (_ • _)]
    · rw [add_zero, tensor_smul_left (_ • _), smul_add, smul_smul, hzz, one_smul]
  · refine ⟨(sgn (ancZ Q) : ℂ) • (ω • pauliAct (regPart Q) (part S 1 φ)), ω • pauliAct (regPart Q) (part S 0 φ), ?_, ?_⟩
    · rw [two, tensor_smul_left (_ • _)]; exact add_comm _ _
    · rw [two, tensor_smul_left (_ • _), smul_add, smul_smul, hzz, one_smul]; exact add_comm _ _

/-- One measurement with errors and the ancilla in state `a`, against one with the same errors and a fresh ancilla. -/
theorem error_step {c : StabCode} {s : StabArg} (hs : s.Valid c.n) (e : ℕ → Pauli (c.n + 1)) (a : ZMod 2) :
    ∃ gs, syndromeCircuit c (c.n + 1) (c.n + 1) s = .ok (gs, c.n) ∧ syndromeCircuit c c.n c.n s = .ok (gs, c.n) ∧
      ∃ σ : ℂ, (σ = 1 ∨ σ = -1) ∧ ∀ (φ : Amp c.n) (r : ZMod 2), ∃ φ',
        measProb c.n r (runNoisy gs e (tensor φ (qubit a))) = measProb c.n (r + a) (runNoisy gs e (tensor φ (qubit 0))) ∧
        collapse c.n r (runNoisy gs e (tensor φ (qubit a))) = σ • tensor φ' (qubit r) ∧
        collapse c.n (r + a) (runNoisy gs e (tensor φ (qubit 0))) = tensor φ' (qubit (r + a)) := by
  obtain ⟨gs, h1, h2, h3, h4⟩ := same_circuit hs
  refine ⟨gs, h1, h2, ?_⟩
  obtain ⟨σ, hσ, hx⟩ := exchanged h3 h4 e
  rcases zmod2_cases a with rfl | rfl
  · refine ⟨1, Or.inl rfl, fun φ r => ?_⟩
    obtain ⟨A, B, hA, -⟩ := hx φ
    rw [hA, add_zero, collapse_branches]
    exact ⟨_, rfl, (one_smul ℂ _).symm, rfl⟩
  · refine ⟨σ, hσ, fun φ r => ?_⟩
    obtain ⟨A, B, hA, hB⟩ := hx φ
    rw [hA, hB, measProb_phase (sign_sq hσ), collapse_phase (sign_sq hσ), collapse_branches, collapse_branches, measProb_branches,
      measProb_branches]
    refine ⟨_, ?_, rfl, ?_⟩ <;> rcases zmod2_cases r with rfl | rfl <;> simp [show (1 : ZMod 2) + 1 = 0 from by decide]

theorem shared_phase {c : StabCode} {z : ℂ} (hz : Complex.normSq z = 1) {Ψ Ψ' : Amp (c.n + 1)} {l rs p}
    (h : SharedErrorReadings c Ψ l rs p Ψ') : SharedErrorReadings c (z • Ψ) l rs p (z • Ψ') := by
  induction h with
  | nil Ψ => exact .nil _
  | @cons Ψ Ψ' e s l r rs p gs w h1 h2 h3 ih =>
    rw [show measProb w r (runNoisy gs e Ψ) = measProb w r (runNoisy gs e (z • Ψ)) by
      rw [runNoisy_smul, measProb_phase hz]] at h2 ⊢
    refine .cons h1 h2 ?_
    rw [runNoisy_smul, collapse_phase hz]
    exact ih

/-- **C150**.  Any sequence of operators is measured on an engine with `n + 1` qubits, starting from any state `φ` of the register
and the value `a` of the last qubit, with any Pauli errors at any places of the circuits.  The results, their probability and the
final state of the register are those of the same measurements with the same errors and fresh ancillas, where each single result
is the change from one result to the next; only the sign of the state may differ, and it does not depend on `φ`. -/
theorem C150_unreset (c : StabCode) (l : List ((ℕ → Pauli (c.n + 1)) × StabArg)) (hl : ∀ x ∈ l, x.2.Valid c.n) (a : ZMod 2)
    (rs : List (ZMod 2)) :
    ∃ σ : ℂ, (σ = 1 ∨ σ = -1) ∧ ∀ (φ : Amp c.n) (p : ℝ) (Ψ : Amp (c.n + 1)),
      SharedErrorReadings c (tensor φ (qubit a)) l rs p Ψ ↔
        ∃ φ', FreshErrorReadings c φ l (changes a rs) p φ' ∧ Ψ = σ • tensor φ' (qubit (rs.getLastD a)) := by
  induction l generalizing a rs with
  | nil =>
    refine ⟨1, Or.inl rfl, fun φ p Ψ => ?_⟩
    constructor
    · intro h
      cases h
      exact ⟨φ, .nil φ, by rw [one_smul]; rfl⟩
    · rintro ⟨φ', h, rfl⟩
      cases rs with
      | nil => cases h; rw [one_smul]; exact .nil _
      | cons r rs => cases h
  | cons x l ih =>
    obtain ⟨e, s⟩ := x
    have hl' : ∀ x ∈ l, x.2.Valid c.n := fun t ht => hl t (List.mem_cons_of_mem _ ht)
    cases rs with
    | nil =>
      refine ⟨1, Or.inl rfl, fun φ p Ψ => ⟨fun h => (by cases h), ?_⟩⟩
      rintro ⟨φ', h, -⟩
      cases h
    | cons r rs =>
      obtain ⟨gs, h1, h1', τ, hτ, hstep⟩ := error_step (c := c) (hl _ List.mem_cons_self) e a
      obtain ⟨σ, hσ, hnext⟩ := ih hl' r rs
      have hττ : τ * τ = 1 := by rcases hτ with rfl | rfl <;> norm_num
      refine ⟨τ * σ, sign_mul hτ hσ, fun φ p Ψ => ?_⟩
      obtain ⟨χ, e1, e2, e3⟩ := hstep φ r
      have hlast : (r :: rs).getLastD a = rs.getLastD r := by cases rs <;> rfl
      rw [hlast]
      constructor
      · intro h
        cases h with
        | @cons _ _ _ _ _ _ _ p' gs0 q g1 g2 g3 =>
          rw [h1] at g1
          cases g1
          rw [e2] at g3
          have g3' := shared_phase (sign_sq hτ) g3
          rw [smul_smul, hττ, one_smul] at g3'
          obtain ⟨φ', f1, f2⟩ := (hnext χ p' _).mp g3'
          refine ⟨φ', ?_, ?_⟩
          · rw [e1] at g2 ⊢
            exact FreshErrorReadings.cons h1' g2 e3 f1
          · rw [← smul_smul, ← f2, smul_smul, hττ, one_smul]
      · rintro ⟨φ', h, rfl⟩
        cases h with
        | @cons _ χ' _ _ _ _ _ _ p' gs0 q g1 g2 g3 g4 =>
          rw [h1'] at g1
          cases g1
          rw [e3] at g3
          have e := tensor_qubit_inj g3
          subst e
          rw [← e1] at g2 ⊢
          refine SharedErrorReadings.cons h1 g2 ?_
          rw [e2, ← smul_smul]
          exact shared_phase (sign_sq hτ) ((hnext χ p' _).mpr ⟨φ', g4, rfl⟩)

theorem fresh_iff (c : StabCode) (l : List ((ℕ → Pauli (c.n + 1)) × List ℤ)) (φ φ' : Amp c.n) (rs : List (ZMod 2)) :
    (∃ p, FreshErrorReadings c φ (asArgs l) rs p φ') ↔ CircuitReadings c φ l rs φ' := by
  induction l generalizing φ rs with
  | nil =>
    constructor
    · rintro ⟨p, h⟩; cases h; exact .nil _
    · intro h; cases h; exact ⟨1, .nil _⟩
  | cons x l ih =>
    obtain ⟨e, g⟩ := x
    constructor
    · rintro ⟨p, h⟩
      cases h with
      | cons h1 h2 h3 h4 => exact .cons ⟨_, _, h1, h2, h3⟩ ((ih _ _).mp ⟨_, h4⟩)
    · intro h
      cases h with
      | cons h1 h2 =>
        obtain ⟨gs, w, k1, k2, k3⟩ := h1
        obtain ⟨p, hp⟩ := (ih _ _).mpr h2
        exact ⟨_, .cons k1 k2 k3 hp⟩

theorem sums_changes (a : ZMod 2) (rs : List (ZMod 2)) : runningSums a (changes a rs) = rs := by
  induction rs generalizing a with
  | nil => rfl
  | cons r rs ih =>
    have : a + (r + a) = r := by
      rw [add_comm r, ← add_assoc, ← two_mul, show (2 : ZMod 2) = 0 from by decide, zero_mul, zero_add]
    rw [changes, runningSums, this, ih]

theorem changes_eq (a : ZMod 2) (rs ss : List (ZMod 2)) : changes a rs = ss ↔ rs = runningSums a ss :=
  ⟨fun h => by rw [← h, sums_changes], fun h => by rw [h, changes_sums]⟩

section
variable {s : StabInput} {c : StabCode}

theorem iter_valid (h : stabInit s c.n k none = .ok c) (hb : BinaryArr c.stab) (hind : Independent c.n c.stab) {g : List ℤ}
    (hg : g ∈ c.iter) : (StabArg.bin g).Valid c.n := by
  obtain ⟨-, -, -, hsh, -, -, -⟩ := accepted_facts h hb hind
  obtain ⟨a, ha, rfl⟩ := iter_mem.mp hg
  exact ⟨by rw [row_length, hsh.cols], row_binary hsh.binary ha⟩

theorem shared_readings_from (h : stabInit s c.n k none = .ok c) (hb : BinaryArr c.stab) (hind : Independent c.n c.stab)
    (l : List ((ℕ → Pauli (c.n + 1)) × List ℤ)) (hl : ∀ x ∈ l, x.2 ∈ c.iter) (v : BVec c.n) (a : ZMod 2) :
    ∃ σ : ℂ, Complex.normSq σ = 1 ∧ ∀ ψ : Amp c.n, Normalised ψ → (∀ g ∈ c.iter, pauliAct (rowPauli c.n g) ψ = ψ) →
      ∀ z : ℂ, Complex.normSq z = 1 → ∀ rs Ψ,
        (∃ p, SharedErrorReadings c (tensor (z • pauliAct (ofVec v) ψ) (qubit a)) (asArgs l) rs p Ψ) ↔
        rs = runningSums a (readAll c v l).1 ∧
          Ψ = tensor ((σ * z) • pauliAct (ofVec (readAll c v l).2) ψ) (qubit (rs.getLastD a)) := by
  obtain ⟨σ, hσ, hr⟩ := readings_from h hb hind l hl v
  have hval : ∀ x ∈ asArgs l, x.2.Valid c.n := by
    intro x hx
    obtain ⟨y, hy, rfl⟩ := List.mem_map.mp hx
    exact iter_valid h hb hind (hl y hy)
  obtain ⟨τ, hτ, ht⟩ := C150_unreset c (asArgs l) hval a (runningSums a (readAll c v l).1)
  refine ⟨τ * σ, by rw [map_mul, sign_sq hτ, hσ, one_mul], fun ψ hψ hfix z hz rs Ψ => ?_⟩
  have hfresh := hr ψ hψ hfix z hz
  constructor
  · rintro ⟨p, hp⟩
    obtain ⟨τ', -, ht'⟩ := C150_unreset c (asArgs l) hval a rs
    obtain ⟨φ', f1, -⟩ := (ht' _ _ _).mp hp
    obtain ⟨g1, -⟩ := (hfresh _ _).mp ((fresh_iff c l _ _ _).mp ⟨p, f1⟩)
    have hrs := (changes_eq _ _ _).mp g1
    refine ⟨hrs, ?_⟩
    rw [hrs] at hp
    obtain ⟨φ'', k1, rfl⟩ := (ht _ _ _).mp hp
    obtain ⟨-, rfl⟩ := (hfresh _ _).mp ((fresh_iff c l _ _ _).mp ⟨p, k1⟩)
    rw [hrs, ← tensor_smul_left, smul_smul, mul_assoc]
  · rintro ⟨rfl, rfl⟩
    obtain ⟨p, hp⟩ := (fresh_iff c l _ _ _).mpr ((hfresh _ _).mpr ⟨rfl, rfl⟩)
    refine ⟨p, (ht _ _ _).mpr ⟨_, by rw [changes_sums]; exact hp, ?_⟩⟩
    rw [← tensor_smul_left, smul_smul, mul_assoc]

/-- **C150, what is read**.  Let the last qubit hold `a`, let any Pauli operator `v` be on what is encoded, and measure rows of the
normal form with errors anywhere.  Exactly one list of results is possible, the running sums from `a` on of what fresh ancillas
give: an error that flips the ancilla in one measurement flips that result and all later ones. -/
theorem C150_results (h : stabInit s c.n k none = .ok c) (hb : BinaryArr c.stab) (hind : Independent c.n c.stab)
    (hY : ∀ a < c.stab.rows, parityY (rowPauli c.n (c.stab.row a)) = 0)
    (l : List ((ℕ → Pauli (c.n + 1)) × List ℤ)) (hl : ∀ x ∈ l, x.2 ∈ c.iter) (v : BVec c.n) (a : ZMod 2) :
    ∃ σ : ℂ, Complex.normSq σ = 1 ∧ ∀ ψ, Encoded c c.n k ψ → Normalised ψ → ∀ rs Ψ,
      (∃ p, SharedErrorReadings c (tensor (pauliAct (ofVec v) ψ) (qubit a)) (asArgs l) rs p Ψ) ↔
        rs = runningSums a (readAll c v l).1 ∧
          Ψ = tensor (σ • pauliAct (ofVec (readAll c v l).2) ψ) (qubit (rs.getLastD a)) := by
  obtain ⟨σ, hσ, hr⟩ := shared_readings_from h hb hind l hl v a
  refine ⟨σ, hσ, fun ψ hψ hN rs Ψ => ?_⟩
  have := hr ψ hN (encoded_fix h hb hind hY hψ) 1 (by simp) rs Ψ
  rwa [one_smul, mul_one] at this

theorem shared_circuit_from (h : stabInit s c.n k none = .ok c) (hb : BinaryArr c.stab) (hind : Independent c.n c.stab)
    {table : ZMod 2 → List (ZMod 2) → List ℤ} (ht : ∀ a, TableFor c.n (table a)) (ess : List (List (ℕ → Pauli (c.n + 1))))
    (v : BVec c.n) (a : ZMod 2) :
    ∃ ω : ℂ, Complex.normSq ω = 1 ∧ ∀ ψ : Amp c.n, Normalised ψ → (∀ g ∈ c.iter, pauliAct (rowPauli c.n g) ψ = ψ) →
      ∀ z : ℂ, Complex.normSq z = 1 → ∀ φ, SharedCircuitRounds c table (z • pauliAct (ofVec v) ψ) a ess φ ↔
        φ = (ω * z) • pauliAct (ofVec (leftoverCircuitShared c table v a ess)) ψ := by
  induction ess generalizing v a with
  | nil =>
    refine ⟨1, by simp, fun ψ _ _ z _ φ => ⟨fun hr => ?_, ?_⟩⟩
    · cases hr; rw [one_mul]; rfl
    · rintro rfl; rw [one_mul]; exact .nil _ _
  | cons es ess ih =>
    obtain ⟨σ, hσ, hread⟩ := shared_readings_from h hb hind (es.zip c.iter) (fun x hx => (List.of_mem_zip hx).2) v a
    set u := (readAll c v (es.zip c.iter)).2 with hu
    set b := (runningSums a (readAll c v (es.zip c.iter)).1).getLastD a with hb'
    set r := table a (runningSums a (readAll c v (es.zip c.iter)).1) with hr
    obtain ⟨ω, hω, hall⟩ := ih (u + (rowPauli c.n r).vec) b
    obtain ⟨corr, str, c1, -, -, c4⟩ := C48_apply_stabilizer c.n r (ht _ _).1 (ht _ _).2
    set τ : ℂ := Complex.I ^ (str.count 'Y') * sgn (dotp (rowPauli c.n r).vec.2 u.1) with hτ
    have hτn : Complex.normSq τ = 1 := by rw [hτ, map_mul, normSq_sgn, map_pow, Complex.normSq_I, one_pow, one_mul]
    refine ⟨ω * (τ * σ), by rw [map_mul, map_mul, hω, hτn, hσ]; norm_num, fun ψ hψ hfix z hz φ => ?_⟩
    have key := hread ψ hψ hfix z hz
    have hcorr : run corr ((σ * z) • pauliAct (ofVec u) ψ) = (τ * (σ * z)) • pauliAct (ofVec (u + (rowPauli c.n r).vec)) ψ := by
      rw [run_smul, c4]
      have := pauliAct_ofVec_add (rowPauli c.n r).vec u ψ
      rw [show pauliAct (rowPauli c.n r) (pauliAct (ofVec u) ψ) = _ from this, smul_smul, smul_smul, hτ]
      congr 1; ring
    have hτz : Complex.normSq (τ * (σ * z)) = 1 := by rw [map_mul, hτn, map_mul, hσ, hz]; norm_num
    have hnext := hall ψ hψ hfix (τ * (σ * z)) hτz φ
    have hfin : ω * (τ * (σ * z)) = ω * (τ * σ) * z := by ring
    rw [hfin] at hnext
    have hnz : Normalised ((σ * z) • pauliAct (ofVec u) ψ) :=
      normalised_smul' (by rw [map_mul, hσ, hz, one_mul]) (normalised_pauli _ hψ)
    constructor
    · intro hR
      cases hR with
      | cons hh hc hrest =>
        obtain ⟨rfl, hΨ⟩ := (key _ _).mp ⟨_, hh⟩
        obtain rfl := tensor_qubit_left hnz hΨ
        rw [← hr, c1] at hc
        cases hc
        rw [hcorr] at hrest
        exact hnext.mp hrest
    · intro hφ
      obtain ⟨p, hp⟩ := (key _ _).mpr ⟨rfl, rfl⟩
      refine SharedCircuitRounds.cons (corr := corr) hp (by rw [← hr]; exact c1) ?_
      rw [hcorr]; exact hnext.mpr hφ

/-- **C150, error correction**.  Any number of rounds with errors anywhere in the measurements and an ancilla that is never reset
can be carried out on whatever is encoded; they leave it, up to a common phase, with one Pauli operator, and bring it back exactly
when that is in the group of the code. -/
theorem C150_rounds (h : stabInit s c.n k none = .ok c) (hb : BinaryArr c.stab) (hind : Independent c.n c.stab)
    (hY : ∀ a < c.stab.rows, parityY (rowPauli c.n (c.stab.row a)) = 0)
    (table : ZMod 2 → List (ZMod 2) → List ℤ) (ht : ∀ a, TableFor c.n (table a)) (ess : List (List (ℕ → Pauli (c.n + 1))))
    (a : ZMod 2) :
    (∃ ω : ℂ, Complex.normSq ω = 1 ∧ ∀ ψ, Encoded c c.n k ψ → Normalised ψ → ∀ φ,
      SharedCircuitRounds c table ψ a ess φ ↔ φ = ω • pauliAct (ofVec (leftoverCircuitShared c table 0 a ess)) ψ) ∧
    ((∃ z : ℂ, ∀ ψ, Encoded c c.n k ψ → Normalised ψ → ∀ φ, SharedCircuitRounds c table ψ a ess φ → φ = z • ψ) ↔
      leftoverCircuitShared c table 0 a ess ∈ groupOf c.n c.iter) := by
  obtain ⟨ω, hω, hall⟩ := shared_circuit_from h hb hind ht ess 0 a
  have hR : ∀ ψ, Encoded c c.n k ψ → Normalised ψ → ∀ φ,
      SharedCircuitRounds c table ψ a ess φ ↔ φ = ω • pauliAct (ofVec (leftoverCircuitShared c table 0 a ess)) ψ := by
    intro ψ hψ hN φ
    have := hall ψ hN (encoded_fix h hb hind hY hψ) 1 (by simp) φ
    rw [one_smul, mul_one] at this
    rwa [show pauliAct (ofVec (0 : BVec c.n)) ψ = ψ from pauliAct_one ψ] at this
  exact ⟨⟨ω, hω, hR⟩, (restored_iff h hb hind hY hω hR).1⟩

theorem leftoverCircuitShared_changes (c : StabCode) (table : List (ZMod 2) → List ℤ) (ess : List (List (ℕ → Pauli (c.n + 1))))
    (v : BVec c.n) (a : ZMod 2) :
    leftoverCircuitShared c (fun a rs => table (changes a rs)) v a ess = leftoverCircuit c table v ess := by
  induction ess generalizing v a with
  | nil => rfl
  | cons es ess ih =>
    rw [leftoverCircuitShared, leftoverCircuit]
    simp only [changes_sums]
    exact ih _ _

/-- **C150, the repair**.  A user who looks up the changes from each result to the next gets back what is encoded for exactly the
same errors as one who has a fresh ancilla for every measurement. -/
theorem C150_changes (h : stabInit s c.n k none = .ok c) (hb : BinaryArr c.stab) (hind : Independent c.n c.stab)
    (hY : ∀ a < c.stab.rows, parityY (rowPauli c.n (c.stab.row a)) = 0)
    (table : List (ZMod 2) → List ℤ) (ht : TableFor c.n table) (ess : List (List (ℕ → Pauli (c.n + 1)))) (a : ZMod 2) :
    (∃ z : ℂ, ∀ ψ, Encoded c c.n k ψ → Normalised ψ → ∀ φ,
        SharedCircuitRounds c (fun a rs => table (changes a rs)) ψ a ess φ → φ = z • ψ) ↔
      ∃ z : ℂ, ∀ ψ, Encoded c c.n k ψ → Normalised ψ → ∀ φ, CircuitRounds c table ψ ess φ → φ = z • ψ := by
  rw [(C150_rounds h hb hind hY (fun a rs => table (changes a rs)) (fun _ _ => ht _) ess a).2,
    (C148_rounds h hb hind hY table ht ess).2, leftoverCircuitShared_changes]

theorem readAll_append (c : StabCode) (l₁ l₂ : List ((ℕ → Pauli (c.n + 1)) × List ℤ)) (v : BVec c.n) :
    (readAll c v (l₁ ++ l₂)).1 = (readAll c v l₁).1 ++ (readAll c (readAll c v l₁).2 l₂).1 := by
  induction l₁ generalizing v with
  | nil => rfl
  | cons x l ih => rw [List.cons_append, readAll, readAll]; exact congrArg _ (ih _)

theorem readAll_length (c : StabCode) (l : List ((ℕ → Pauli (c.n + 1)) × List ℤ)) (v : BVec c.n) :
    (readAll c v l).1.length = l.length := by
  induction l generalizing v with
  | nil => rfl
  | cons x l ih => rw [readAll]; exact congrArg (· + 1) (ih _)

theorem runningSums_length (a : ZMod 2) (ss : List (ZMod 2)) : (runningSums a ss).length = ss.length := by
  induction ss generalizing a with
  | nil => rfl
  | cons s ss ih => exact congrArg (· + 1) (ih _)

theorem runningSums_append (a : ZMod 2) (ss ts : List (ZMod 2)) :
    runningSums a (ss ++ ts) = runningSums a ss ++ runningSums ((runningSums a ss).getLastD a) ts := by
  induction ss generalizing a with
  | nil => rfl
  | cons s ss ih =>
    have hlast : ((a + s) :: runningSums (a + s) ss).getLastD a = (runningSums (a + s) ss).getLastD (a + s) := by
      cases runningSums (a + s) ss <;> rfl
    rw [List.cons_append, runningSums, runningSums, ih, List.cons_append, hlast]

theorem runningSums_flip (a : ZMod 2) (ss : List (ZMod 2)) : runningSums (a + 1) ss = (runningSums a ss).map (· + 1) := by
  induction ss generalizing a with
  | nil => rfl
  | cons s ss ih => rw [runningSums, runningSums, List.map_cons, ← ih, add_right_comm]

/-- **C150, a flipped ancilla stays flipped**.  Let the errors `e'` of one measurement do the same as `e` except that in the end they
flip the ancilla once more.  Then that result and all later ones are the opposite, and the earlier ones are the same.  (With fresh
ancillas only that one result changes.) -/
theorem C150_persistent (h : stabInit s c.n k none = .ok c) (hb : BinaryArr c.stab) (hind : Independent c.n c.stab)
    (hY : ∀ a < c.stab.rows, parityY (rowPauli c.n (c.stab.row a)) = 0)
    (l₁ l₂ : List ((ℕ → Pauli (c.n + 1)) × List ℤ)) (e e' : ℕ → Pauli (c.n + 1)) (g : List ℤ)
    (hl : ∀ x ∈ l₁ ++ (e, g) :: l₂, x.2 ∈ c.iter)
    (hreg : regPart (stepError c g e') = regPart (stepError c g e)) (hanc : ancX (stepError c g e') = ancX (stepError c g e) + 1)
    (v : BVec c.n) (a : ZMod 2) (ψ : Amp c.n) (hψ : Encoded c c.n k ψ) (hN : Normalised ψ) (rs rs' : List (ZMod 2)) (p p' : ℝ)
    (Ψ Ψ' : Amp (c.n + 1))
    (h₁ : SharedErrorReadings c (tensor (pauliAct (ofVec v) ψ) (qubit a)) (asArgs (l₁ ++ (e, g) :: l₂)) rs p Ψ)
    (h₂ : SharedErrorReadings c (tensor (pauliAct (ofVec v) ψ) (qubit a)) (asArgs (l₁ ++ (e', g) :: l₂)) rs' p' Ψ') :
    rs' = rs.take l₁.length ++ (rs.drop l₁.length).map (· + 1) := by
  have hl' : ∀ x ∈ l₁ ++ (e', g) :: l₂, x.2 ∈ c.iter := by
    intro x hx
    rcases List.mem_append.mp hx with hx | hx
    · exact hl x (List.mem_append_left _ hx)
    · rcases List.mem_cons.mp hx with rfl | hx
      · exact hl (e, g) (List.mem_append_right _ List.mem_cons_self)
      · exact hl x (List.mem_append_right _ (List.mem_cons_of_mem _ hx))
  obtain ⟨_, -, k₁⟩ := C150_results h hb hind hY _ hl v a
  obtain ⟨_, -, k₂⟩ := C150_results h hb hind hY _ hl' v a
  obtain ⟨rfl, -⟩ := (k₁ ψ hψ hN _ _).mp ⟨p, h₁⟩
  obtain ⟨rfl, -⟩ := (k₂ ψ hψ hN _ _).mp ⟨p', h₂⟩
  have hlen : (runningSums a (readAll c v l₁).1).length = l₁.length := by rw [runningSums_length, readAll_length]
  rw [readAll_append, readAll_append, runningSums_append, runningSums_append, List.take_left' hlen, List.drop_left' hlen]
  congr 1
  rw [readAll, readAll, hreg, hanc]
  dsimp only
  simp only [runningSums, List.map_cons, ← runningSums_flip, ← add_assoc]

end

/-- The five-qubit code and its table meet the hypotheses; for every row of the normal form, no errors and a flip of the ancilla after
the last gate are errors as in `C150_persistent`. -/
example : ∃ c, stabInit (.rows fiveRows) c.n 1 none = .ok c ∧ BinaryArr c.stab ∧ Independent c.n c.stab ∧
    (∀ a < c.stab.rows, parityY (rowPauli c.n (c.stab.row a)) = 0) ∧ TableFor c.n fiveTable ∧ c.iter ≠ [] ∧
    ∀ g ∈ c.iter, ∃ gs w, syndromeCircuit c c.n c.n (.bin g) = .ok (gs, w) ∧
      let e : ℕ → Pauli (c.n + 1) := fun i => if i = gs.length then ⟨0, 0⟩ else ⟨0, 0⟩
      let e' : ℕ → Pauli (c.n + 1) := fun i => if i = gs.length then ⟨Pi.single (Fin.last c.n) 1, 0⟩ else ⟨0, 0⟩
      regPart (stepError c g e') = regPart (stepError c g e) ∧ ancX (stepError c g e') = ancX (stepError c g e) + 1 := by
  obtain ⟨c, h1, h2, h3, h4, h5⟩ := five_code
  have hn : c.n = 5 := (accepted_facts h1 h2 h3).1
  rw [← hn] at h1 h3 h4
  refine ⟨c, h1, h2, h3, h4, by rw [hn]; exact fiveTable_for, ?_, fun g hg => ?_⟩
  · rw [h5]; exact List.cons_ne_nil _ _
  · obtain ⟨gs, -, k, -⟩ := same_circuit (iter_valid h1 h2 h3 hg)
    refine ⟨gs, _, k, ?_⟩
    intro e e'
    have hs : ∀ q : Pauli (c.n + 1), stepError c g (fun i => if i = gs.length then q else ⟨0, 0⟩) = q := by
      intro q
      unfold stepError
      rw [k]
      exact totalError_end gs q
    rw [hs, hs]
    refine ⟨congrArg₂ Pauli.mk (funext fun j => ?_) rfl, by simp [ancX]⟩
    have : (Fin.castAdd 1 j : Fin (c.n + 1)) ≠ Fin.last c.n := by
      intro hh; have := congrArg Fin.val hh; simp at this; omega
    simp [this]

end PyQ
