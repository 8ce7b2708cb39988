import Verif.Props.Syndrome
import Verif.Lemmas.Measure

/-! # C57, C58: syndrome measurements on arbitrary states -/

namespace PyQ

open Spec

variable {n : ℕ}

/-- The circuit built for a valid argument, and its action on every state. -/
theorem syndromeCircuit_part {c : StabCode} {active len : ℕ}
    (h : (active = c.n ∧ len = c.n) ∨ (active = c.n + 1 ∧ len = c.n + 1)) {s : StabArg} (hs : s.Valid c.n) :
    ∃ gs, syndromeCircuit c active len s = .ok (gs, c.n) ∧ ∀ (φ : Amp c.n) (a : ZMod 2),
        run gs (tensor φ (qubit a)) =
          tensor (part (s.pauli c.n) a φ) (qubit 0) + tensor (part (s.pauli c.n) (a + 1) φ) (qubit 1) := by
  cases s with
  | str s => exact ⟨_, syndromeCircuit_str h hs.1 hs.2, fun φ a => run_syndrome_part hs.1 φ a⟩
  | bin b =>
    obtain ⟨s, h1, h2, -, h4⟩ := syndromeCircuit_bin h hs.1 hs.2
    refine ⟨_, h4, fun φ a => ?_⟩
    have := run_syndrome_part (s := s) (n := c.n) (by omega) φ a
    rw [h2] at this
    exact this

theorem pauliAct_sq {p : Pauli n} (hY : parityY p = 0) (φ : Amp n) : pauliAct p (pauliAct p φ) = φ := by
  rw [pauliAct_comp, show dotp p.z p.x = 0 from hY, sgn_zero, one_smul]
  have : p.add p = ⟨0, 0⟩ := by simp [Pauli.add, add_self_f]
  rw [this, pauliAct_one]

theorem braket_add_left (φ φ' ψ : Amp n) : braket (φ + φ') ψ = braket φ ψ + braket φ' ψ := by
  unfold braket; simp only [Pi.add_apply, map_add, add_mul, Finset.sum_add_distrib]

theorem braket_add_right (φ ψ ψ' : Amp n) : braket φ (ψ + ψ') = braket φ ψ + braket φ ψ' := by
  unfold braket; simp only [Pi.add_apply, mul_add, Finset.sum_add_distrib]

theorem braket_smul_left (a : ℂ) (φ ψ : Amp n) : braket (a • φ) ψ = (starRingEnd ℂ) a * braket φ ψ := by
  unfold braket; simp only [Pi.smul_apply, smul_eq_mul, map_mul, Finset.mul_sum, mul_assoc]

theorem braket_smul_right (a : ℂ) (φ ψ : Amp n) : braket φ (a • ψ) = a * braket φ ψ := by
  unfold braket; simp only [Pi.smul_apply, smul_eq_mul, Finset.mul_sum]
  exact Finset.sum_congr rfl fun b _ => by ring

theorem normSq_braket (φ : Amp n) : ((normSq φ : ℝ) : ℂ) = braket φ φ := by
  unfold normSq braket
  refine (map_sum Complex.ofRealHom _ _).trans (Finset.sum_congr rfl fun b _ => ?_)
  rw [mul_comm, Complex.mul_conj]; rfl

theorem normSq_smul (a : ℂ) (φ : Amp n) : normSq (a • φ) = Complex.normSq a * normSq φ := by
  unfold normSq
  rw [Finset.mul_sum]
  exact Finset.sum_congr rfl fun b _ => by rw [Pi.smul_apply, smul_eq_mul, Complex.normSq_mul]

theorem normSq_nonneg (φ : Amp n) : 0 ≤ normSq φ := Finset.sum_nonneg fun _ _ => Complex.normSq_nonneg _

/-- What the two parts of a state are, for an operator with an even number of Y's: they add up to the state, they are
eigenvectors with eigenvalues `1` and `-1`, they are orthogonal, and their squared lengths add up to that of the state. -/
theorem C57_parts (p : Pauli n) (hY : parityY p = 0) (φ : Amp n) :
    part p 0 φ + part p 1 φ = φ ∧ pauliAct p (part p 0 φ) = part p 0 φ ∧ pauliAct p (part p 1 φ) = -part p 1 φ ∧
      braket (part p 0 φ) (part p 1 φ) = 0 ∧ normSq (part p 0 φ) + normSq (part p 1 φ) = normSq φ := by
  have h0 : pauliAct p (part p 0 φ) = part p 0 φ := by
    unfold part
    rw [sgn_zero, one_smul, pauliAct_smul, pauliAct_add, pauliAct_sq hY, add_comm]
  have h1 : pauliAct p (part p 1 φ) = -part p 1 φ := by
    unfold part
    rw [sgn_one, neg_smul, one_smul, pauliAct_smul, pauliAct_add, ← neg_one_smul ℂ (pauliAct p φ), pauliAct_smul,
      pauliAct_sq hY, ← smul_neg]
    congr 1
    rw [neg_one_smul, neg_one_smul, neg_add, neg_neg, add_comm]
  have hs : part p 0 φ + part p 1 φ = φ := by
    unfold part
    rw [sgn_zero, one_smul, sgn_one, neg_smul, one_smul, ← smul_add]
    funext b
    simp only [Pi.smul_apply, Pi.add_apply, Pi.neg_apply, smul_eq_mul]
    ring
  have hb : braket (part p 0 φ) (part p 1 φ) = 0 := by
    have e := braket_pauli p (part p 0 φ) (part p 1 φ)
    rw [hY, sgn_zero, one_mul, h0, h1, ← neg_one_smul ℂ (part p 1 φ), braket_smul_right] at e
    linear_combination (1 / 2) * e
  have hb' : braket (part p 1 φ) (part p 0 φ) = 0 := by
    have e := braket_pauli p (part p 1 φ) (part p 0 φ)
    rw [hY, sgn_zero, one_mul, h0, h1, ← neg_one_smul ℂ (part p 1 φ), braket_smul_left] at e
    simp only [map_neg, map_one] at e
    linear_combination (-1 / 2) * e
  refine ⟨hs, h0, h1, hb, ?_⟩
  have e := congrArg (fun ψ => braket ψ ψ) hs
  simp only [braket_add_left, braket_add_right, hb, hb'] at e
  simp only [← normSq_braket] at e
  have : ((normSq (part p 0 φ) + normSq (part p 1 φ) : ℝ) : ℂ) = ((normSq φ : ℝ) : ℂ) := by
    rw [← e]; push_cast; ring
  exact_mod_cast this

/-- **C57, partial**.  `single_syndrome_measurement` of an operator with an even number of Y's, given as a string or as a
0/1 row, with an ancilla in state 0 (allocated by the call or the last of `n + 1` qubits), measures that operator on
every normalised state `φ` of the register: the result `r` is read with probability `‖(1 + (-1)^r S)/2 φ‖²`, the two
probabilities add up to one, and the register is left in that projection, normalised.  Missing for C57: odd numbers of
Y's, see `C57_odd_refuted`. -/
theorem C57_measures_partial (c : StabCode) (s : StabArg) (hs : s.Valid c.n) (hY : parityY (s.pauli c.n) = 0)
    (active len : ℕ) (h : (active = c.n ∧ len = c.n) ∨ (active = c.n + 1 ∧ len = c.n + 1)) :
    ∃ gs, syndromeCircuit c active len s = .ok (gs, c.n) ∧ ∀ φ : Amp c.n, Normalised φ →
      (∀ r, measProb c.n r (run gs (tensor φ (qubit 0))) = normSq (part (s.pauli c.n) r φ)) ∧
      measProb c.n 0 (run gs (tensor φ (qubit 0))) + measProb c.n 1 (run gs (tensor φ (qubit 0))) = 1 ∧
      ∀ r, normSq (part (s.pauli c.n) r φ) ≠ 0 → ∃ φ', collapse c.n r (run gs (tensor φ (qubit 0))) = tensor φ' (qubit r) ∧
        φ' = ((Real.sqrt (normSq (part (s.pauli c.n) r φ)) : ℝ) : ℂ)⁻¹ • part (s.pauli c.n) r φ ∧
        Normalised φ' ∧ pauliAct (s.pauli c.n) φ' = (sgn r : ℂ) • φ' := by
  obtain ⟨gs, h1, h2⟩ := syndromeCircuit_part h hs
  refine ⟨gs, h1, fun φ hφ => ?_⟩
  have hrun := h2 φ 0
  rw [zero_add] at hrun
  obtain ⟨-, p2, p3, -, p5⟩ := C57_parts (s.pauli c.n) hY φ
  have hif : ∀ r : ZMod 2, (if r = 0 then part (s.pauli c.n) 0 φ else part (s.pauli c.n) 1 φ) = part (s.pauli c.n) r φ := by
    intro r
    rcases zmod2_cases r with rfl | rfl
    · rw [if_pos rfl]
    · rw [if_neg (by decide)]
  have hp : ∀ r, measProb c.n r (run gs (tensor φ (qubit 0))) = normSq (part (s.pauli c.n) r φ) := by
    intro r
    rw [hrun, measProb_branches, hif]
  refine ⟨hp, ?_, ?_⟩
  · rw [hp, hp, p5]; exact hφ
  · intro r hr
    refine ⟨_, by rw [hrun, collapse_branches, hif], rfl, ?_, ?_⟩
    · have hpos : 0 < normSq (part (s.pauli c.n) r φ) := lt_of_le_of_ne (normSq_nonneg _) hr.symm
      show normSq _ = 1
      rw [normSq_smul, Complex.normSq_inv, Complex.normSq_ofReal, Real.mul_self_sqrt hpos.le, inv_mul_cancel₀ hr]
    · rw [pauliAct_smul, smul_comm]
      congr 1
      rcases zmod2_cases r with rfl | rfl
      · rw [p2, sgn_zero, one_smul]
      · rw [p3, sgn_one, neg_one_smul]

/-- **C57 fails for odd numbers of Y's**: whatever the state, even an eigenstate of the operator, each result is read
with probability one half. -/
theorem C57_odd_refuted (c : StabCode) (s : StabArg) (hs : s.Valid c.n) (hY : parityY (s.pauli c.n) = 1)
    (active len : ℕ) (h : (active = c.n ∧ len = c.n) ∨ (active = c.n + 1 ∧ len = c.n + 1)) :
    ∃ gs, syndromeCircuit c active len s = .ok (gs, c.n) ∧ ∀ φ : Amp c.n, Normalised φ →
      ∀ r, measProb c.n r (run gs (tensor φ (qubit 0))) = 1 / 2 := by
  obtain ⟨gs, h1, h2⟩ := syndromeCircuit_part h hs
  refine ⟨gs, h1, fun φ hφ r => ?_⟩
  have hrun := h2 φ 0
  rw [zero_add] at hrun
  have hif : (if r = 0 then part (s.pauli c.n) 0 φ else part (s.pauli c.n) 1 φ) = part (s.pauli c.n) r φ := by
    rcases zmod2_cases r with rfl | rfl
    · rw [if_pos rfl]
    · rw [if_neg (by decide)]
  rw [hrun, measProb_branches, hif]
  set p := s.pauli c.n
  have hS : normSq (pauliAct p φ) = 1 := normalised_pauli p hφ
  have e := braket_pauli p φ φ
  rw [hY, sgn_one] at e
  have hc : ((normSq (part p r φ) : ℝ) : ℂ) = ((1 / 2 : ℝ) : ℂ) := by
    rw [normSq_braket]
    unfold part
    rw [braket_smul_left, braket_smul_right, braket_add_left, braket_add_right, braket_add_right, braket_smul_left,
      braket_smul_right, braket_smul_left, braket_smul_right, conj_sgn, ← normSq_braket, ← normSq_braket, hS,
      show normSq φ = 1 from hφ, e]
    have := sgn_mul_self (R := ℂ) r
    simp only [map_div₀, map_one, map_ofNat, Complex.ofReal_one]
    push_cast
    linear_combination (1 / 4) * this
  exact_mod_cast hc

/-- The eigenstate `(|0⟩ + i|1⟩)/√2` of Y on one qubit: it is normalised, Y (that is `i X Z`) fixes it, and the string
"Y" is a valid argument with an odd number of Y's. -/
example : ∃ φ : Amp 1, Normalised φ ∧ Complex.I • pauliAct (strPauli 1 ['Y']) φ = φ ∧
    (StabArg.str ['Y']).Valid 1 ∧ parityY ((StabArg.str ['Y']).pauli 1) = 1 := by
  refine ⟨((Real.sqrt 2 : ℝ) : ℂ)⁻¹ • (qubit 0 + Complex.I • qubit 1), ?_, ?_, ?_, by decide⟩
  · have h1 : normSq (qubit 0 + Complex.I • qubit 1 : Amp 1) = 2 := by
      unfold normSq
      rw [← (Equiv.funUnique (Fin 1) (ZMod 2)).symm.sum_comp]
      rw [show (Finset.univ : Finset (ZMod 2)) = {0, 1} from rfl, Finset.sum_insert (by decide), Finset.sum_singleton]
      have hk : ∀ u v : ZMod 2, (((Equiv.funUnique (Fin 1) (ZMod 2)).symm u : Fin 1 → ZMod 2) = fun _ => v) ↔ u = v := by
        intro u v
        constructor
        · intro h; exact congrFun h 0
        · rintro rfl; rfl
      simp only [Pi.add_apply, Pi.smul_apply, qubit, ket, hk]
      norm_num
    show normSq _ = 1
    rw [normSq_smul, h1, Complex.normSq_inv, Complex.normSq_ofReal, Real.mul_self_sqrt (by norm_num)]
    norm_num
  · rw [pauliAct_smul, smul_comm]
    congr 1
    rw [pauliAct_add, pauliAct_smul]
    unfold qubit
    rw [pauliAct_ket, pauliAct_ket, show dotp (strPauli 1 ['Y']).z (fun _ => 0) = 0 by decide,
      show dotp (strPauli 1 ['Y']).z (fun _ => 1) = 1 by decide, show (fun _ => 0) + (strPauli 1 ['Y']).x = fun _ => 1 by decide,
      show (fun _ => 1) + (strPauli 1 ['Y']).x = fun _ => 0 by decide, sgn_zero, sgn_one, one_smul, smul_add, smul_smul,
      smul_smul, add_comm]
    congr 1
    rw [Complex.I_mul_I, neg_mul_neg, one_mul, one_smul]
  · exact ⟨by decide, by decide⟩

/-- **C58**.  Let a list of operators be measured one after the other on a normalised state, each with a fresh ancilla;
the operators commute pairwise and contain even numbers of Y's.  Then, whatever results `rs` come out, the final state is
a normalised joint eigenvector with the results as signs, measuring the list again returns the same results with
certainty and changes nothing; and some history always exists. -/
theorem C58_projects (c : StabCode) (ss : List StabArg) (hv : ∀ s ∈ ss, s.Valid c.n ∧ parityY (s.pauli c.n) = 0)
    (hcom : ∀ s ∈ ss, ∀ s' ∈ ss, symp (s.pauli c.n) (s'.pauli c.n) = 0) (φ : Amp c.n) (hφ : Normalised φ) :
    (∃ rs φ', History (FreshStep c) φ ss rs φ') ∧
    ∀ rs φ', History (FreshStep c) φ ss rs φ' → Normalised φ' ∧
      List.Forall₂ (fun s r => pauliAct (s.pauli c.n) φ' = (sgn r : ℂ) • φ') ss rs ∧
      (∀ rs' φ'', History (FreshStep c) φ' ss rs' φ'' ↔ rs' = rs ∧ φ'' = φ') := by
  -- one step
  have hstep : ∀ s ∈ ss, ∀ ψ : Amp c.n, Normalised ψ → (∃ r ψ', FreshStep c ψ s r ψ') ∧
      ∀ r ψ', FreshStep c ψ s r ψ' → Normalised ψ' ∧ pauliAct (s.pauli c.n) ψ' = (sgn r : ℂ) • ψ' ∧
        ∃ a : ℂ, ψ' = a • part (s.pauli c.n) r ψ := by
    intro s hs ψ hψ
    obtain ⟨gs, h1, h2⟩ := C57_measures_partial c s (hv s hs).1 (hv s hs).2 c.n c.n (Or.inl ⟨rfl, rfl⟩)
    obtain ⟨p1, p2, p3⟩ := h2 ψ hψ
    constructor
    · have : ∃ r, normSq (part (s.pauli c.n) r ψ) ≠ 0 := by
        by_contra hno
        push Not at hno
        rw [p1, p1, hno, hno] at p2
        norm_num at p2
      obtain ⟨r, hr⟩ := this
      obtain ⟨ψ', q1, -⟩ := p3 r hr
      exact ⟨r, ψ', gs, c.n, h1, by rw [p1]; exact hr, q1⟩
    · rintro r ψ' ⟨gs', q, g1, g2, g3⟩
      rw [h1] at g1
      cases g1
      rw [p1] at g2
      obtain ⟨χ, q1, q2, q3, q4⟩ := p3 r g2
      rw [q1] at g3
      have := tensor_qubit_inj g3
      subst this
      exact ⟨q3, q4, _, q2⟩
  have hpart : ∀ s ∈ ss, ∀ s' ∈ ss, ∀ (t r : ZMod 2) (ψ : Amp c.n), pauliAct (s.pauli c.n) ψ = (sgn t : ℂ) • ψ →
      pauliAct (s.pauli c.n) (part (s'.pauli c.n) r ψ) = (sgn t : ℂ) • part (s'.pauli c.n) r ψ := by
    intro s hs s' hs' t r ψ he
    unfold part
    rw [pauliAct_smul, pauliAct_add, pauliAct_smul, pauliAct_comm, hcom s hs s' hs', sgn_zero, one_smul, he, pauliAct_smul,
      smul_comm (sgn r : ℂ), ← smul_add, smul_comm]
  -- existence
  have hex : ∀ l : List StabArg, (∀ s ∈ l, s ∈ ss) → ∀ ψ : Amp c.n, Normalised ψ → ∃ rs φ', History (FreshStep c) ψ l rs φ' := by
    intro l
    induction l with
    | nil => intro _ ψ _; exact ⟨[], ψ, .nil ψ⟩
    | cons s l ih =>
      intro hl ψ hψ
      obtain ⟨⟨r, ψ', hs⟩, h2⟩ := hstep s (hl s (by simp)) ψ hψ
      obtain ⟨rs, φ', hh⟩ := ih (fun s' hs' => hl s' (by simp [hs'])) ψ' (h2 r ψ' hs).1
      exact ⟨r :: rs, φ', .cons hs hh⟩
  -- joint eigenvectors, keeping relations established before
  have hmain : ∀ l : List StabArg, (∀ s ∈ l, s ∈ ss) → ∀ (ψ : Amp c.n) (rs : List (ZMod 2)) (φ' : Amp c.n),
      Normalised ψ → History (FreshStep c) ψ l rs φ' → Normalised φ' ∧
        List.Forall₂ (fun s r => pauliAct (s.pauli c.n) φ' = (sgn r : ℂ) • φ') l rs ∧
        ∀ s ∈ ss, ∀ t : ZMod 2, pauliAct (s.pauli c.n) ψ = (sgn t : ℂ) • ψ → pauliAct (s.pauli c.n) φ' = (sgn t : ℂ) • φ' := by
    intro l
    induction l with
    | nil =>
      intro _ ψ rs φ' hψ hh
      cases hh
      exact ⟨hψ, .nil, fun s _ t ht => ht⟩
    | cons s l ih =>
      intro hl ψ rs φ' hψ hh
      cases hh with
      | cons hs htail =>
        rename_i y r rs'
        have hsm := hl s (by simp)
        obtain ⟨q1, q2, a, q3⟩ := (hstep s hsm ψ hψ).2 r y hs
        obtain ⟨i1, i2, i3⟩ := ih (fun s' hs' => hl s' (by simp [hs'])) y rs' φ' q1 htail
        refine ⟨i1, .cons (i3 s hsm r q2) i2, ?_⟩
        intro s' hs' t ht
        apply i3 s' hs' t
        rw [q3, pauliAct_smul, hpart s' hs' s hsm t r ψ ht, smul_comm]
  refine ⟨hex ss (fun _ h => h) φ hφ, ?_⟩
  intro rs φ' hh
  obtain ⟨m1, m2, -⟩ := hmain ss (fun _ h => h) φ rs φ' hφ hh
  refine ⟨m1, m2, ?_⟩
  -- the results as a function of the operator
  have hne : φ' ≠ 0 := by
    rintro rfl
    unfold Normalised at m1
    simp at m1
  have hex2 : ∀ s ∈ ss, ∃ t : ZMod 2, pauliAct (s.pauli c.n) φ' = (sgn t : ℂ) • φ' := by
    intro s hs
    obtain ⟨i, hi, rfl⟩ := List.getElem_of_mem hs
    obtain ⟨hlen, h2⟩ := List.forall₂_iff_get.mp m2
    exact ⟨rs[i]'(by omega), h2 i hi (by omega)⟩
  classical
  set t : StabArg → ZMod 2 := fun s => if h : ∃ t : ZMod 2, pauliAct (s.pauli c.n) φ' = (sgn t : ℂ) • φ' then h.choose else 0 with ht
  have htspec : ∀ s ∈ ss, pauliAct (s.pauli c.n) φ' = (sgn (t s) : ℂ) • φ' := by
    intro s hs
    simp only [ht]
    rw [dif_pos (hex2 s hs)]
    exact (hex2 s hs).choose_spec
  have huniq : ∀ a b : ZMod 2, (sgn a : ℂ) • φ' = (sgn b : ℂ) • φ' → a = b := by
    intro a b hab
    have := smul_left_injective ℂ hne hab
    rcases zmod2_cases a with rfl | rfl <;> rcases zmod2_cases b with rfl | rfl <;> simp at this ⊢ <;> norm_num at this
  have hrs : rs = ss.map t := by
    obtain ⟨hlen, h2⟩ := List.forall₂_iff_get.mp m2
    apply List.ext_getElem
    · rw [List.length_map]; omega
    · intro i hi hi'
      rw [List.getElem_map]
      have hi2 : i < ss.length := by omega
      have a1 := h2 i hi2 hi
      have a2 := htspec (ss[i]) (List.getElem_mem hi2)
      simp only [List.get_eq_getElem] at a1
      exact huniq _ _ (a1.symm.trans a2)
  obtain ⟨u1, u2⟩ := C17_fresh_history c φ' m1 t ss fun s hs => ⟨(hv s hs).1, htspec s hs⟩
  intro rs' φ''
  rw [hrs]
  constructor
  · exact u1 rs' φ''
  · rintro ⟨rfl, rfl⟩; exact u2

/-- The two generators XXXX and ZZZZ meet the hypotheses of C58, for any code object on four qubits. -/
example (c : StabCode) (hc : c.n = 4) :
    (∀ s ∈ [StabArg.str ['X', 'X', 'X', 'X'], StabArg.bin [0, 0, 0, 0, 1, 1, 1, 1]], s.Valid c.n ∧ parityY (s.pauli c.n) = 0) ∧
    (∀ s ∈ [StabArg.str ['X', 'X', 'X', 'X'], StabArg.bin [0, 0, 0, 0, 1, 1, 1, 1]],
      ∀ s' ∈ [StabArg.str ['X', 'X', 'X', 'X'], StabArg.bin [0, 0, 0, 0, 1, 1, 1, 1]],
        symp (s.pauli c.n) (s'.pauli c.n) = 0) := by
  rw [hc]
  constructor
  · intro s hs
    simp only [List.mem_cons, List.not_mem_nil, or_false] at hs
    rcases hs with rfl | rfl
    · exact ⟨⟨by decide, by decide⟩, by decide⟩
    · exact ⟨⟨by decide, by unfold IsBinary; decide⟩, by decide⟩
  · intro s hs s' hs'
    simp only [List.mem_cons, List.not_mem_nil, or_false] at hs hs'
    rcases hs with rfl | rfl <;> rcases hs' with rfl | rfl <;> decide

end PyQ
