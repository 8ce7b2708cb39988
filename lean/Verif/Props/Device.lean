import Verif.Lemmas.Device
import Verif.Lemmas.Except

/-!
# C42, C43, C52: the device adaptor
-/

namespace PyQ

open Spec

variable {N : ℕ}

/-! ### C42: the two-design and its inverse -/

/-- C42.  `inverse_of_unitary_two_design`, given the record returned by `approximate_unitary_two_design`, sends a
circuit that undoes the circuit of `approximate_unitary_two_design` on every state, for every register size,
`epsilon` and random draws. -/
theorem C42_inverse {epsilon : ℝ} {d : Draws} {gs : List DGate} {phases : List (List ℝ)}
    (h : twoDesign N epsilon d = .ok (gs, phases)) :
    ∃ gs', inverseDesign N phases = .ok gs' ∧ (∀ ψ : Amp N, runD gs' (runD gs ψ) = ψ) ∧
      ∀ ψ : Amp N, runD gs (runD gs' ψ) = ψ := by
  unfold twoDesign at h
  rcases ht : numbTimes N epsilon with e | times
  · rw [ht] at h; cases h
  rw [ht] at h
  injection h with h
  simp only [Prod.mk.injEq, List.map_map] at h
  obtain ⟨rfl, rfl⟩ := h
  choose inv hinv hundo using fun r => round_undo (N := N) d r
  refine ⟨((List.range times.toNat).map inv).reverse.flatten, ?_, ?_⟩
  · unfold inverseDesign
    rw [← List.map_reverse, List.mapM_map]
    rw [mapM_ok_of (f := inverseRound N ∘ Prod.snd ∘ designRound N d) (g := inv) (fun r _ => hinv r),
      ← List.map_reverse]
    rfl
  · exact Undo.flatten (fun r => (designRound N d r).1) inv _ fun r _ => hundo r

/-- C42.  `approximate_unitary_two_design` returns exactly for a positive `epsilon` and a register that is not
empty. -/
theorem C42_accepted (epsilon : ℝ) (d : Draws) :
    (∃ r, twoDesign N epsilon d = .ok r) ↔ 0 < epsilon ∧ 0 < N := by
  unfold twoDesign numbTimes
  constructor
  · rintro ⟨r, h⟩
    split_ifs at h with h1 h2 h3 h4
    · cases h
    · cases h
    · cases h
    · cases h
    · exact ⟨lt_of_le_of_ne (not_lt.mp h2) (Ne.symm h1), Nat.pos_of_ne_zero h3⟩
  · rintro ⟨h1, h2⟩
    rw [if_neg h1.ne', if_neg (not_lt.mpr h1.le), if_neg h2.ne']
    exact ⟨_, rfl⟩

/-- C42.  The record has one entry per round, `2 ⌈log₂(1/ε)/N⌉ + 1` in all, of `N²` phases. -/
theorem C42_record {epsilon : ℝ} {d : Draws} {gs : List DGate} {phases : List (List ℝ)}
    (h : twoDesign N epsilon d = .ok (gs, phases)) :
    phases.length = (2 * ⌈Real.logb 2 (1 / epsilon) / N⌉ + 1).toNat ∧ ∀ l ∈ phases, l.length = N ^ 2 := by
  obtain ⟨h1, h2⟩ := (C42_accepted (N := N) epsilon d).mp ⟨_, h⟩
  unfold twoDesign numbTimes at h
  rw [if_neg h1.ne', if_neg (not_lt.mpr h1.le), if_neg h2.ne'] at h
  injection h with h
  simp only [Prod.mk.injEq] at h
  obtain ⟨-, rfl⟩ := h
  refine ⟨by simp, ?_⟩
  intro l hl
  simp only [List.map_map, List.mem_reverse, List.mem_map, List.mem_range, Function.comp_apply] at hl
  obtain ⟨r, -, rfl⟩ := hl
  rw [designRound_eq]
  have hp : (pairs N).length = N * (N - 1) := by
    unfold pairs
    rw [List.length_flatMap, List.map_congr_left (g := fun _ => N - 1)]
    · simp
    · intro i hi
      have hc : ((List.range N).filter fun j => i = j).length = 1 := by
        rw [← List.countP_eq_length_filter]
        have : (List.range N).count i = 1 := List.count_eq_one_of_mem List.nodup_range hi
        rw [← this]
        unfold List.count
        congr 1
        funext j
        by_cases hj : i = j
        · simp [hj]
        · simp [hj, Ne.symm hj]
      have ht := List.length_eq_length_filter_add (l := List.range N) (fun j => decide (i = j))
      rw [List.length_range, hc] at ht
      rw [List.length_map]
      have : ((List.range N).filter fun j => decide (i ≠ j)) = (List.range N).filter fun j => !decide (i = j) := by
        congr 1
        funext j
        simp
      rw [this]
      omega
  simp only [List.length_append, List.length_map, List.length_range, hp]
  cases N with
  | zero => omega
  | succ n => simp; ring

/-- C42, errors: `ZeroDivisionError` for `epsilon = 0`, `ValueError` for a negative `epsilon`; on an empty register
`ValueError` for `epsilon = 1` and `OverflowError` for every other positive `epsilon`. -/
theorem C42_errors (d : Draws) : twoDesign N 0 d = .error .zeroDivision ∧
    (∀ epsilon < 0, twoDesign N epsilon d = .error .value) ∧ twoDesign 0 1 d = .error .value ∧
    ∀ epsilon > 0, epsilon ≠ 1 → twoDesign 0 epsilon d = .error .overflow := by
  refine ⟨?_, ?_, ?_, ?_⟩
  · unfold twoDesign numbTimes
    rw [if_pos rfl]
    rfl
  · intro epsilon h
    unfold twoDesign numbTimes
    rw [if_neg h.ne, if_pos h]
    rfl
  · unfold twoDesign numbTimes
    rw [if_neg one_ne_zero, if_neg (by norm_num), if_pos rfl, if_pos rfl]
    rfl
  · intro epsilon h h1
    unfold twoDesign numbTimes
    rw [if_neg (ne_of_gt h), if_neg (not_lt.mpr h.le), if_pos rfl, if_neg h1]
    rfl

/-- A call that returns: three qubits and `epsilon = 1/2`. -/
example (d : Draws) : ∃ r, twoDesign 3 (1 / 2) d = .ok r := (C42_accepted _ d).mpr ⟨by norm_num, by norm_num⟩

/-! ### C43: the estimate -/

/-- The outcomes of measurements are possible ones: a basis state with amplitude zero is never found. -/
def Spec.Possible (w : World N) : Prop :=
  ∀ (t : ℕ) (ψ : Amp N), ψ ≠ 0 → ψ (w.outcome t ψ) ≠ 0

variable {realDevice cheat : Bool} {w : World N} {epsilon : ℝ}

/-- A trial: if the channel maps `U ψ` to `U φ`, where `U` is the circuit of the two-design of the trial and `ψ` the
state after the reset, then the state measured is `φ`. -/
theorem trial_ok {t : ℕ} {gs : List DGate} {phases : List (List ℝ)} {ψ φ : Amp N}
    (h : twoDesign N epsilon (w.draws t) = .ok (gs, phases))
    (hch : w.channel t (runD gs (setRegisterToZero realDevice cheat ψ)) = .ok (runD gs φ)) :
    trial realDevice cheat epsilon w t ψ = .ok (ket (w.outcome t φ), decide (w.outcome t φ = 0)) := by
  obtain ⟨gs', h1, h2, -⟩ := C42_inverse h
  unfold trial
  simp only [h, hch, h1, bind, Except.bind, h2]
  rfl

/-- C43.  For a simulator the estimate is the fraction of trials with outcome zero, where trial `t` starts in the
state zero and measures `φ t = U† channel (U |0...0⟩)`; `U` is the circuit of the two-design of the trial. -/
theorem C43_value {n : ℕ} (hn : 0 < n) (U : ℕ → List DGate) (φ : ℕ → Amp N) (ψ : Amp N)
    (hU : ∀ t < n, ∃ phases, twoDesign N epsilon (w.draws t) = .ok (U t, phases))
    (hch : ∀ t < n, w.channel t (runD (U t) (ket 0)) = .ok (runD (U t) (φ t))) :
    estimateFidelity false cheat w n epsilon ψ =
      .ok ((((Finset.range n).filter fun t => w.outcome t (φ t) = 0).card : ℝ) / n) := by
  have key : ∀ m ≤ n, ∃ χ, (List.range m).foldlM (estimateStep false cheat epsilon w) (ψ, 0) =
      .ok (χ, ((Finset.range m).filter fun t => w.outcome t (φ t) = 0).card) := by
    intro m hm
    induction m with
    | zero => exact ⟨ψ, rfl⟩
    | succ m ih =>
      obtain ⟨χ, hχ⟩ := ih (by omega)
      obtain ⟨phases, hd⟩ := hU m (by omega)
      rw [List.range_succ, foldlM_append_except, hχ]
      have ht : trial false cheat epsilon w m χ = _ := trial_ok hd (hch m (by omega))
      refine ⟨ket (w.outcome m (φ m)), ?_⟩
      simp only [Except.bind, List.foldlM_cons, List.foldlM_nil, estimateStep, ht, bind, pure, Except.pure]
      rw [Finset.range_add_one, Finset.filter_insert]
      by_cases h0 : w.outcome m (φ m) = 0
      · rw [if_pos (by simpa using h0), if_pos h0, Finset.card_insert_of_notMem (by simp)]
      · rw [if_neg (by simpa using h0), if_neg h0]
  obtain ⟨χ, hχ⟩ := key n le_rfl
  unfold estimateFidelity
  rw [Int.toNat_natCast, hχ]
  simp only [bind, Except.bind]
  rw [if_neg (by exact_mod_cast hn.ne')]
  simp [pure, Except.pure]

/-- C43.  Whatever the channel, the draws, the outcomes and the device, a value that is returned is a fraction
`k / ntimes` between zero and one. -/
theorem C43_range {ntimes : ℤ} {ψ : Amp N} {v : ℝ}
    (h : estimateFidelity realDevice cheat w ntimes epsilon ψ = .ok v) :
    0 ≤ v ∧ v ≤ 1 ∧ ∃ k : ℕ, (k : ℤ) ≤ max ntimes 0 ∧ v = k / ntimes := by
  have key : ∀ (l : List ℕ) (s s' : Amp N × ℕ), l.foldlM (estimateStep realDevice cheat epsilon w) s = .ok s' →
      s'.2 ≤ s.2 + l.length := by
    intro l
    induction l with
    | nil =>
      intro s s' h
      injection h with h
      simp [← h]
    | cons a l ih =>
      intro s s' h
      rw [foldlM_cons_except] at h
      rcases hst : estimateStep realDevice cheat epsilon w s a with e | s1
      · rw [hst] at h; cases h
      rw [hst] at h
      have h1 := ih s1 s' h
      have h2 : s1.2 ≤ s.2 + 1 := by
        unfold estimateStep at hst
        rcases htr : trial realDevice cheat epsilon w a s.1 with e | p
        · rw [htr] at hst; cases hst
        rw [htr] at hst
        injection hst with hst
        rw [← hst]
        simp only
        split_ifs <;> omega
      simp only [List.length_cons]
      omega
  unfold estimateFidelity at h
  rcases hf : (List.range ntimes.toNat).foldlM (estimateStep realDevice cheat epsilon w) (ψ, 0) with e | s
  · rw [hf] at h; cases h
  rw [hf] at h
  simp only [bind, Except.bind] at h
  split_ifs at h with h0
  injection h with h
  have hk := key _ _ _ hf
  simp only [List.length_range, Nat.zero_add] at hk
  subst h
  refine ⟨?_, ?_, s.2, by omega, rfl⟩
  · rcases lt_or_gt_of_ne h0 with hneg | hpos
    · have : s.2 = 0 := by omega
      simp [this]
    · have : (0 : ℝ) < ntimes := by exact_mod_cast hpos
      positivity
  · rcases lt_or_gt_of_ne h0 with hneg | hpos
    · have : s.2 = 0 := by omega
      simp [this]
    · have h1 : (0 : ℝ) < ntimes := by exact_mod_cast hpos
      have h2 : (s.2 : ℤ) ≤ ntimes := by omega
      rw [div_le_one h1]
      exact_mod_cast h2

theorem ket_ne_zero (b : Fin N → ZMod 2) : ket b ≠ 0 := by
  intro h
  have := congrFun h b
  simp [ket] at this

theorem possible_ket (hw : Spec.Possible w) (t : ℕ) (c : ℂ) (hc : c ≠ 0) (b : Fin N → ZMod 2) :
    w.outcome t (c • ket b) = b := by
  by_contra h
  refine hw t (c • ket b) (smul_ne_zero hc (ket_ne_zero b)) ?_
  have h0 : ket b (w.outcome t (c • ket b)) = 0 := if_neg h
  rw [Pi.smul_apply, h0, smul_zero]

/-- C43.  The estimate is one for the identity channel: for every number of trials, `epsilon`, draws and possible
outcomes, if the channel leaves every state unchanged up to a factor.  For a real device the register has to be
in the state zero at the start. -/
theorem C43_identity {n : ℕ} (hn : 0 < n) (heps : 0 < epsilon) (hN : 0 < N) (hw : Spec.Possible w)
    (c : ℕ → ℂ) (hc : ∀ t, c t ≠ 0) (hch : ∀ t ψ, w.channel t ψ = .ok (c t • ψ)) (ψ : Amp N)
    (hψ : realDevice = true → ψ = ket 0) :
    estimateFidelity realDevice cheat w n epsilon ψ = .ok 1 := by
  have key : ∀ m ≤ n, ∃ χ, (realDevice = true → χ = ket 0) ∧
      (List.range m).foldlM (estimateStep realDevice cheat epsilon w) (ψ, 0) = .ok (χ, m) := by
    intro m hm
    induction m with
    | zero => exact ⟨ψ, hψ, rfl⟩
    | succ m ih =>
      obtain ⟨χ, hχ0, hχ⟩ := ih (by omega)
      obtain ⟨⟨gs, phases⟩, hd⟩ := (C42_accepted (N := N) epsilon (w.draws m)).mpr ⟨heps, hN⟩
      have hz : setRegisterToZero realDevice cheat χ = ket 0 := by
        unfold setRegisterToZero
        split_ifs with h
        · exact hχ0 h
        · rfl
      rw [List.range_succ, foldlM_append_except, hχ]
      have ht : trial realDevice cheat epsilon w m χ = _ :=
        trial_ok (φ := c m • ket 0) hd (by rw [hz, hch, runD_smul])
      refine ⟨ket 0, fun _ => rfl, ?_⟩
      rw [possible_ket hw _ _ (hc m)] at ht
      simp only [Except.bind, List.foldlM_cons, List.foldlM_nil, estimateStep, ht, bind, pure, Except.pure]
      simp
  obtain ⟨χ, -, hχ⟩ := key n le_rfl
  unfold estimateFidelity
  rw [Int.toNat_natCast, hχ]
  simp only [bind, Except.bind]
  rw [if_neg (by exact_mod_cast hn.ne')]
  have : (n : ℝ) ≠ 0 := by exact_mod_cast hn.ne'
  simp [pure, Except.pure, div_self this]

/-- C43, errors and corner cases: no trials raise `ZeroDivisionError`, a negative number of trials returns zero,
and with trials an unusable `epsilon` and an exception of the channel in the first trial are passed on. -/
theorem C43_errors (ψ : Amp N) :
    estimateFidelity realDevice cheat w 0 epsilon ψ = .error .zeroDivision ∧
    (∀ ntimes < 0, estimateFidelity realDevice cheat w ntimes epsilon ψ = .ok 0) ∧
    (∀ ntimes > 0, ∀ err, twoDesign N epsilon (w.draws 0) = .error err →
      estimateFidelity realDevice cheat w ntimes epsilon ψ = .error err) ∧
    ∀ ntimes > 0, 0 < epsilon → 0 < N → ∀ err, (∀ χ, w.channel 0 χ = .error err) →
      estimateFidelity realDevice cheat w ntimes epsilon ψ = .error err := by
  have first : ∀ ntimes : ℤ, ntimes > 0 → ∀ err, trial realDevice cheat epsilon w 0 ψ = .error err →
      estimateFidelity realDevice cheat w ntimes epsilon ψ = .error err := by
    intro ntimes hn err htr
    obtain ⟨m, hm⟩ : ∃ m, ntimes.toNat = m + 1 := ⟨ntimes.toNat - 1, by omega⟩
    unfold estimateFidelity
    rw [hm, List.range_succ_eq_map, foldlM_cons_except]
    unfold estimateStep
    simp only [htr, bind, Except.bind]
  refine ⟨rfl, ?_, ?_, ?_⟩
  · intro ntimes hn
    unfold estimateFidelity
    rw [Int.toNat_of_nonpos hn.le]
    simp only [List.range_zero, List.foldlM_nil, bind, Except.bind, pure, Except.pure]
    rw [if_neg hn.ne]
    simp
  · intro ntimes hn err h
    refine first ntimes hn err ?_
    unfold trial
    rw [h]
    rfl
  · intro ntimes hn heps hN err h
    obtain ⟨⟨gs, phases⟩, hd⟩ := (C42_accepted (N := N) epsilon (w.draws 0)).mpr ⟨heps, hN⟩
    refine first ntimes hn err ?_
    unfold trial
    simp only [hd, h, bind, Except.bind]

/-! ### Real devices: the register is not reset -/

/-- The qubit with amplitudes `a` and `b`. -/
def oneQubit (a b : ℂ) : Amp 1 := fun x => if x 0 = 0 then a else b

theorem bit_cases (x : Fin 1 → ZMod 2) : x = 0 ∨ x = fun _ => 1 := by
  rcases zmod2_cases (x 0) with h | h
  · left; funext i; rw [Subsingleton.elim i 0]; exact h
  · right; funext i; rw [Subsingleton.elim i 0]; exact h

theorem H_qubit (a b : ℂ) : applyD (.H 0) (oneQubit a b) =
    oneQubit (((Real.sqrt 2 : ℝ) : ℂ)⁻¹ * (a + b)) (((Real.sqrt 2 : ℝ) : ℂ)⁻¹ * (a - b)) := by
  funext x
  rw [applyH, sum_zmod2]
  have h0 : setBit x 0 0 = 0 := by funext i; rw [Subsingleton.elim i 0]; rfl
  have h1 : setBit x 0 1 = fun _ => 1 := by funext i; rw [Subsingleton.elim i 0]; rfl
  rw [h0, h1, opMat_H, opMat_H]
  rcases bit_cases x with rfl | rfl
  · simp [oneQubit, bitAt]
    ring
  · simp [oneQubit, bitAt]
    ring

theorem R_qubit (θ : ℝ) (a b : ℂ) : applyD (.R none θ 0) (oneQubit a b) =
    oneQubit a (Complex.exp (θ * Complex.I) * b) := by
  funext x
  rcases bit_cases x with rfl | rfl <;> simp [applyD, oneQubit, bitAt]

/-- Draws in which every phase is zero. -/
def zeroDraws : Draws := ⟨fun _ _ => 0, fun _ _ _ => false⟩

/-- With these draws the two-design on one qubit for `epsilon = 1` is a Hadamard gate. -/
theorem zeroDraws_design : ∃ gs phases, twoDesign 1 1 zeroDraws = .ok (gs, phases) ∧
    ∀ a b, runD gs (oneQubit a b) = applyD (.H 0) (oneQubit a b) := by
  have hn : numbTimes 1 1 = .ok 1 := by
    unfold numbTimes
    rw [if_neg (by norm_num), if_neg (by norm_num), if_neg (by norm_num)]
    simp
  refine ⟨_, _, by unfold twoDesign; rw [hn]; rfl, ?_⟩
  intro a b
  rw [show Int.toNat 1 = 1 from rfl]
  simp only [List.range_one, List.map_cons, List.map_nil, List.flatten_cons, List.flatten_nil, designRound_eq]
  simp only [List.range_one, List.map_cons, List.map_nil, pairs, List.flatMap_cons, List.flatMap_nil, allH,
    singleAngle, zeroDraws, designPhases]
  simp only [ne_eq, List.append_nil, List.cons_append, List.nil_append, runD_cons, List.filter_cons]
  simp [runD_cons, runD_nil, R_qubit]

/-- An outcome for every state of one qubit: zero if it is possible, else one. -/
noncomputable def firstOutcome (ψ : Amp 1) : Fin 1 → ZMod 2 := if ψ 0 = 0 then fun _ => 1 else 0

theorem firstOutcome_possible (ψ : Amp 1) (h : ψ ≠ 0) : ψ (firstOutcome ψ) ≠ 0 := by
  unfold firstOutcome
  split_ifs with h0
  · intro h1
    apply h
    funext x
    rcases bit_cases x with rfl | rfl
    · exact h0
    · exact h1
  · exact h0

/-- The trials of a channel that applies the gate Z. -/
noncomputable def zWorld : World 1 :=
  ⟨fun _ => zeroDraws, fun _ ψ => .ok (applyD (.R none Real.pi 0) ψ), fun _ ψ => firstOutcome ψ⟩

theorem zWorld_trial (realDevice cheat : Bool) (t : ℕ) (a b : ℂ) (ψ : Amp 1)
    (h : setRegisterToZero realDevice cheat ψ = oneQubit a b) :
    trial realDevice cheat 1 zWorld t ψ =
      .ok (ket (firstOutcome (oneQubit b a)), decide (firstOutcome (oneQubit b a) = 0)) := by
  obtain ⟨gs, phases, h1, h2⟩ := zeroDraws_design
  refine trial_ok (w := zWorld) (φ := oneQubit b a) h1 ?_
  rw [h, h2, h2, H_qubit, H_qubit]
  simp only [zWorld, R_qubit]
  congr 1
  rw [Complex.exp_pi_mul_I, add_comm a b]
  congr 1
  ring

/-- C43 needs the reset: with `real_device=True` a trial starts where the previous one ended.  For the gate Z as
the channel, the draws without phases and `epsilon = 1`, the estimate from two trials is zero on a simulator, as it
should be, and one half with `real_device=True`, although the register is zero at the start. -/
theorem C43_real_device_refuted : Spec.Possible zWorld ∧
    estimateFidelity false false zWorld 2 1 (ket 0) = .ok 0 ∧
    estimateFidelity true false zWorld 2 1 (ket 0) = .ok (1 / 2) := by
  have hz : (ket 0 : Amp 1) = oneQubit 1 0 := by
    funext x
    rcases bit_cases x with rfl | rfl
    · simp [ket, oneQubit]
    · simp [ket, oneQubit, funext_iff]
  have ho : (ket (fun _ => 1) : Amp 1) = oneQubit 0 1 := by
    funext x
    rcases bit_cases x with rfl | rfl
    · simp [ket, oneQubit, funext_iff]
    · simp [ket, oneQubit]
  have hne : (fun _ => 1 : Fin 1 → ZMod 2) ≠ 0 := by simp [funext_iff]
  have f1 : firstOutcome (oneQubit 0 1) = fun _ => 1 := by simp [firstOutcome, oneQubit]
  have f0 : firstOutcome (oneQubit 1 0) = 0 := by simp [firstOutcome, oneQubit]
  refine ⟨fun t ψ h => firstOutcome_possible ψ h, ?_, ?_⟩
  · have t1 := fun t ψ => zWorld_trial false false t 1 0 ψ hz
    rw [f1] at t1
    unfold estimateFidelity
    rw [show (2 : ℤ).toNat = 2 from rfl, show List.range 2 = [0, 1] from rfl]
    simp only [List.foldlM_cons, List.foldlM_nil, estimateStep, t1, bind, Except.bind, pure, Except.pure, hne]
    simp
  · have t1 := zWorld_trial true false 0 1 0 (ket 0) hz
    have t2 := zWorld_trial true false 1 0 1 (ket fun _ => 1) ho
    rw [f1] at t1
    rw [f0] at t2
    unfold estimateFidelity
    rw [show (2 : ℤ).toNat = 2 from rfl, show List.range 2 = [0, 1] from rfl]
    simp only [List.foldlM_cons, List.foldlM_nil, estimateStep, t1, t2, bind, Except.bind, pure, Except.pure, hne]
    simp

/-- The hypotheses of `C43_value` hold for the gate Z, where `φ t = |1⟩`. -/
example : ∃ U : ℕ → List DGate, (∀ t < 2, ∃ phases, twoDesign 1 1 (zWorld.draws t) = .ok (U t, phases)) ∧
    ∀ t < 2, zWorld.channel t (runD (U t) (oneQubit 1 0)) = .ok (runD (U t) (oneQubit 0 1)) := by
  obtain ⟨gs, phases, h1, h2⟩ := zeroDraws_design
  refine ⟨fun _ => gs, fun t _ => ⟨phases, h1⟩, fun t _ => ?_⟩
  rw [h2, h2, H_qubit, H_qubit]
  simp only [zWorld, R_qubit]
  congr 1
  rw [Complex.exp_pi_mul_I]
  simp

/-- The hypotheses of `C43_identity` hold for the channel that does nothing. -/
example (draws : ℕ → Draws) : estimateFidelity false false
    (⟨draws, fun _ ψ => .ok ψ, fun _ ψ => firstOutcome ψ⟩ : World 1) 7 (1 / 10) (ket 0) = .ok 1 :=
  C43_identity (n := 7) (by norm_num) (by norm_num) (by norm_num) (fun _ ψ h => firstOutcome_possible ψ h)
    (fun _ => 1) (fun _ => one_ne_zero) (fun _ ψ => by rw [one_smul]) _ (by simp)

/-! ### `QDeviceChannel` -/

variable {q : QDevice N} {l : Luck N}

/-- C43.  `estimate_average_fidelity_channel` returns one if the circuit leaves every state unchanged up to a
factor. -/
theorem C43_channel_identity {n : ℕ} (hn : 0 < n) (heps : 0 < epsilon) (hN : 0 < N)
    (hl : ∀ (t : ℕ) (ψ : Amp N), ψ ≠ 0 → ψ (l.outcome t ψ) ≠ 0) (hq : q.chan.extraArgs = 0)
    (c : ℕ → ℂ) (hc : ∀ t, c t ≠ 0) (hch : ∀ t ψ, q.chan.act [] t ψ = .ok (c t • ψ)) (ψ : Amp N)
    (hψ : q.realDevice = true → ψ = ket 0) :
    q.estimateChannel l n epsilon cheat ψ = .ok 1 := by
  refine C43_identity (w := l.world q.chan) hn heps hN hl c hc ?_ ψ hψ
  intro t ψ
  simp only [Luck.world, Circ.call]
  rw [if_pos (by simp [hq])]
  exact hch t ψ

/-- C43.  `estimate_average_fidelity_error_code` returns one if the decoder after the channel after the encoder
leaves every state unchanged up to a factor: the three circuits are run in this order. -/
theorem C43_code_identity {n : ℕ} (hn : 0 < n) (heps : 0 < epsilon) (hN : 0 < N)
    (hl : ∀ (t : ℕ) (ψ : Amp N), ψ ≠ 0 → ψ (l.outcome t ψ) ≠ 0) (hq : q.chan.extraArgs = 0) (enc dec : Circ N)
    (he : enc.extraArgs = 0) (hd : dec.extraArgs = 0) (E C D : ℕ → Amp N → Amp N)
    (hE : ∀ t ψ, enc.act [] t ψ = .ok (E t ψ)) (hC : ∀ t ψ, q.chan.act [] t ψ = .ok (C t ψ))
    (hD : ∀ t ψ, dec.act [] t ψ = .ok (D t ψ))
    (c : ℕ → ℂ) (hc : ∀ t, c t ≠ 0) (hid : ∀ t ψ, D t (C t (E t ψ)) = c t • ψ) (ψ : Amp N)
    (hψ : q.realDevice = true → ψ = ket 0) :
    q.estimateErrorCode l enc dec n epsilon ψ = .ok 1 := by
  refine C43_identity (w := l.world (q.totalChannel enc dec)) hn heps hN hl c hc ?_ ψ hψ
  intro t ψ
  simp only [Luck.world, Circ.call, QDevice.totalChannel, List.length_nil, if_true, hq, he, hd, List.headD_nil, hE,
    hC, hD, bind, Except.bind, hid]

/-- The gate H as encoder and as decoder, and a channel that does nothing, meet the hypotheses of
`C43_code_identity`. -/
example (draws : ℕ → Draws) :
    (⟨⟨0, fun _ _ ψ => .ok ψ⟩, false⟩ : QDevice 1).estimateErrorCode ⟨draws, fun _ ψ => firstOutcome ψ⟩
      ⟨0, fun _ _ ψ => .ok (applyD (.H 0) ψ)⟩ ⟨0, fun _ _ ψ => .ok (applyD (.H 0) ψ)⟩ 5 (1 / 4) (ket 0) = .ok 1 :=
  C43_code_identity (n := 5) (by norm_num) (by norm_num) (by norm_num) (fun _ ψ h => firstOutcome_possible ψ h) rfl
    _ _ rfl rfl (fun _ => applyD (.H 0)) (fun _ ψ => ψ) (fun _ => applyD (.H 0)) (fun _ _ => rfl) (fun _ _ => rfl)
    (fun _ _ => rfl) (fun _ => 1) (fun _ => one_ne_zero) (fun _ ψ => by
      rw [one_smul]; exact (H_undo 0 (by norm_num)).1 ψ) _ (by simp)

/-! ### C52: optimising encoder and decoder -/

variable {luck : List ℝ → Luck N}
  {diffev : (List ℝ → Except PyErr ℝ) → List (ℝ × ℝ) → ℕ → Except PyErr QDevice.DiffevRes}
  {enc dec : Circ N} {ntimes : ℤ} {nE nD maxiter : ℕ} {bounds : List (ℝ × ℝ)} {optimizer : String}

/-- C52.  The checks on the arguments: `AssertionError` for the wrong number of bounds, else `ValueError` for an
optimizer other than `"diffev"`. -/
theorem C52_checks (ψ : Amp N) :
    (bounds.length ≠ nE + nD → q.optimizeEncDec luck diffev enc dec ntimes epsilon nE nD bounds optimizer maxiter ψ =
      .error .assertion) ∧
    (bounds.length = nE + nD → optimizer ≠ "diffev" →
      q.optimizeEncDec luck diffev enc dec ntimes epsilon nE nD bounds optimizer maxiter ψ = .error .value) := by
  constructor
  · intro h
    unfold QDevice.optimizeEncDec pyAssert
    rw [if_neg h]
    rfl
  · intro h ho
    unfold QDevice.optimizeEncDec pyAssert
    rw [if_pos h]
    simp only [bind, Except.bind]
    rw [if_neg ho]

/-- C52 is false of the code.  `optimize_encoder_decoder_average_fidelity` never returns when at least one trial is
asked for: every evaluation of the objective raises `TypeError`, because `total_channel` needs the argument
`parameters` and is called without it.  This holds for every scipy that reports the value at a point it
evaluated, every encoder, decoder and channel. -/
theorem C52_never_returns_refuted (hsp : ∀ f b m r, diffev f b m = .ok r → f r.x = .ok r.fun_)
    (hn : 0 < ntimes) (heps : 0 < epsilon) (hN : 0 < N) (ψ : Amp N) :
    (∀ p, estimateFidelity q.realDevice false ((luck p).world (q.totalChannelParams enc dec nE)) ntimes epsilon ψ =
      .error .type) ∧
    ∀ out, q.optimizeEncDec luck diffev enc dec ntimes epsilon nE nD bounds optimizer maxiter ψ ≠ .ok out := by
  have h1 : ∀ p, estimateFidelity q.realDevice false ((luck p).world (q.totalChannelParams enc dec nE)) ntimes
      epsilon ψ = .error .type := by
    intro p
    refine (C43_errors (w := (luck p).world (q.totalChannelParams enc dec nE)) ψ).2.2.2 ntimes hn heps hN .type ?_
    intro χ
    simp [Luck.world, Circ.call, QDevice.totalChannelParams]
  refine ⟨h1, ?_⟩
  intro out h
  unfold QDevice.optimizeEncDec pyAssert at h
  split_ifs at h with hb ho
  · simp only [bind, Except.bind] at h
    rcases hd : diffev (fun p => estimateFidelity q.realDevice false
      ((luck p).world (q.totalChannelParams enc dec nE)) ntimes epsilon ψ) bounds maxiter with e | r
    · rw [hd] at h; cases h
    · have := hsp _ _ _ _ hd
      simp only [h1] at this
      cases this
  · cases h
  · cases h
  · cases h

/-- C52, what remains: for a negative number of trials the call returns, with `optimal_val = 0` and the parameters
of scipy split after the first `nE`.  Missing: `optimal_val` as the average fidelity. -/
theorem C52_split_partial (hsp : ∀ f b m r, diffev f b m = .ok r → f r.x = .ok r.fun_) (hn : ntimes < 0)
    (ψ : Amp N) {out : QDevice.EncDecOutput}
    (h : q.optimizeEncDec luck diffev enc dec ntimes epsilon nE nD bounds optimizer maxiter ψ = .ok out) :
    ∃ f r, diffev f bounds maxiter = .ok r ∧ out.paramsEncoder ++ out.paramsDecoder = r.x ∧
      out.paramsEncoder = r.x.take nE ∧ out.success = r.success ∧ out.optimalVal = 0 := by
  unfold QDevice.optimizeEncDec pyAssert at h
  split_ifs at h with hb ho
  · simp only [bind, Except.bind] at h
    rcases hd : diffev (fun p => estimateFidelity q.realDevice false
      ((luck p).world (q.totalChannelParams enc dec nE)) ntimes epsilon ψ) bounds maxiter with e | r
    · rw [hd] at h; cases h
    · rw [hd] at h
      injection h with h
      subst h
      have := hsp _ _ _ _ hd
      simp only [(C43_errors _).2.1 ntimes hn] at this
      injection this with this
      exact ⟨_, r, hd, List.take_append_drop _ _, rfl, rfl, this.symm⟩
  · cases h
  · cases h
  · cases h

end PyQ
