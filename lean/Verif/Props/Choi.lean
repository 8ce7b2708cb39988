import Verif.Lemmas.Choi
import Verif.Lemmas.LinAlg
import Verif.Props.KrausCompose

/-!
# C33: Choi matrices and Kraus operators

`ChoiObj.init q C a b d e = .ok o` says that `ChoiQutip(C, [a, b], d, e)` succeeded, whatever the two checks
`q` of qutip are.
-/

namespace PyQ

open Matrix
open scoped ComplexOrder

theorem choiInit_ok {q : QutipChecks} {C : Arr ℂ} {a b d e : ℕ} {o : ChoiObj}
    (h : ChoiObj.init q C a b d e = .ok o) : o = ⟨C, a, b, d, e⟩ ∧ C.cols = e ^ b * d ^ a := by
  unfold ChoiObj.init at h
  by_cases hc : C.cols = e ^ b * d ^ a
  · rw [if_neg (not_not.mpr hc)] at h
    unfold pyAssert at h
    split_ifs at h with h1 h2
    · simp only [bind, Except.bind, pure, Except.pure] at h
      injection h with h
      exact ⟨h.symm, hc⟩
    · simp [bind, Except.bind] at h
    · simp [bind, Except.bind] at h
    · simp [bind, Except.bind] at h
  · rw [if_pos hc] at h
    simp at h

variable {q : QutipChecks} {C : Arr ℂ} {a b d e : ℕ} {o : ChoiObj}

/-- C33.  With equal numbers of input and output particles, `channel(rho, 1)` of a Choi matrix `C` returns
`∑ ρ y y' C (y, x) (y', x')`, for every `rho`. -/
theorem C33_choi_channel (h : ChoiObj.init q C a a d e = .ok o) (hsq : C.rows = C.cols) (rho : Arr ℂ)
    (hr : rho.rows = d ^ a) (hc : rho.cols = d ^ a) :
    ∃ out, ChoiQ.channel o rho 1 false = .ok out ∧ out.rows = e ^ a ∧ out.cols = e ^ a ∧
      out.mat (e ^ a) (e ^ a) =
        Spec.choiChannel (C.mat (d ^ a * e ^ a) (d ^ a * e ^ a)) (rho.mat (d ^ a) (d ^ a)) := by
  obtain ⟨rfl, hcols⟩ := choiInit_ok h
  have hk : (rho.transpose.kron (Arr.eye (e ^ a))).rows = d ^ a * e ^ a := by
    rw [← hc]; rfl
  have hk' : (rho.transpose.kron (Arr.eye (e ^ a))).cols = d ^ a * e ^ a := by
    rw [← hr]; rfl
  have hdot : C.dot (rho.transpose.kron (Arr.eye (e ^ a))) =
      .ok (C.mul (rho.transpose.kron (Arr.eye (e ^ a)))) := by
    unfold Arr.dot
    rw [if_pos (by rw [hk, hcols, Nat.mul_comm])]
  obtain ⟨out, h1, h2, h3, h4⟩ := ChoiObj.ptrace_output (C.mul (rho.transpose.kron (Arr.eye (e ^ a)))) a d e
    (by change C.rows = _; rw [hsq, hcols, Nat.mul_comm]) hk'
  refine ⟨out, ?_, h2, h3, ?_⟩
  · unfold ChoiQ.channel ChoiObj.channel ChoiObj.outputDim
    simp only [hdot]
    exact h1
  ext x x'
  rw [Arr.mat_apply, h4]
  unfold Spec.choiChannel
  apply Finset.sum_congr rfl; intro y _
  change ∑ k ∈ Finset.range C.cols, _ = _
  rw [hcols, Nat.mul_comm, Finset.sum_range, Spec.sum_index]
  apply Finset.sum_congr rfl; intro y' _
  have key1 : ∀ (y : Fin (d ^ a)) (x : Fin (e ^ a)), (finProdFinEquiv (y, x) : ℕ) % e ^ a = x := by
    intro y x
    rw [finProdFinEquiv_apply_val, Nat.add_mul_mod_self_left, Nat.mod_eq_of_lt x.2]
  have key2 : ∀ (y : Fin (d ^ a)) (x : Fin (e ^ a)), (finProdFinEquiv (y, x) : ℕ) / e ^ a = y := by
    intro y x
    rw [finProdFinEquiv_apply_val, Nat.add_mul_div_left _ _ (lt_of_le_of_lt (Nat.zero_le _) x.2),
      Nat.div_eq_of_lt x.2, zero_add]
  have hent : ∀ z : Fin (e ^ a),
      (rho.transpose.kron (Arr.eye (e ^ a))).get (finProdFinEquiv (y', z)) (finProdFinEquiv (y, x')) =
        rho.get y y' * if z = x' then 1 else 0 := by
    intro z
    change rho.get (_ / e ^ a) (_ / e ^ a) * (if _ % e ^ a = _ % e ^ a then 1 else 0) = _
    rw [key1, key1, key2, key2]
    simp only [Fin.ext_iff]
  simp only [hent]
  rw [Finset.sum_eq_single x']
  · rw [if_pos rfl, mul_one, Arr.mat_apply, Arr.mat_apply, mul_comm]
  · intro z _ hz
    rw [if_neg hz, mul_zero, mul_zero]
  · simp

/-- C33.  If `C = ∑ vec K (vec K)†` for the operators `K` of a Kraus object (dense or sparse), the Choi
object and the Kraus object return the same matrix for every `rho`. -/
theorem C33_choi_equals_kraus {sp : Bool} {ops : Arr3 ℂ} {orth : List ℕ} {k : KrausObj}
    (h : ChoiObj.init q C a a d e = .ok o) (hsq : C.rows = C.cols)
    (hk : QChan.init sp ops a a d e orth = .ok k) (calls : List QChan.Call)
    (hsafe : Spec.SafeUses sp (calls.map QChan.Call.uses ++ [1]))
    (hC : C.mat (d ^ a * e ^ a) (d ^ a * e ^ a) = Spec.choi (ops.ops ops.len (e ^ a) (d ^ a)))
    (rho : Arr ℂ) (hr : rho.rows = d ^ a) (hc : rho.cols = d ^ a) :
    ∃ x y, ChoiQ.channel o rho 1 false = .ok x ∧ (QChan.channel (QChan.history k calls) rho 1 false).1 = .ok y ∧
      Arr.Same x y := by
  obtain ⟨x, x1, x2, x3, x4⟩ := C33_choi_channel h hsq rho hr hc
  obtain ⟨y, y1, y2, y3, y4⟩ := api_channel_one hk calls hsafe rho hr hc
  refine ⟨x, y, x1, y1, ?_⟩
  rw [Arr.same_iff_mat, x2, x3, y2, y3]
  refine ⟨rfl, rfl, ?_⟩
  rw [x4, y4, hC, Spec.choiChannel_choi]

/-- C33.  A family of operators is trace preserving exactly if the partial trace of its Choi matrix over the
output is the identity; `constraint_partial_trace` names that factor (number 1) and the dimensions. -/
theorem C33_trace_preserving {ι : Type} [Fintype ι] {n m : ℕ} (K : ι → Matrix (Fin m) (Fin n) ℂ) :
    Spec.TracePreserving K ↔ Spec.traceOutput (Spec.choi K) = 1 :=
  Spec.tp_iff_traceOutput K

theorem C33_constraint (a b d e : ℕ) :
    ChoiObj.constraintPartialTrace a b d e = (1, [(d ^ a, d ^ a), (e ^ b, e ^ b)]) := rfl

/-! ### `kraus_operators` -/

/-- The operators listed by `kraus_operators`, as a finite sum over the kept eigenvalues. -/
theorem krausOperators_sum (eigh : Eigh) (o : ChoiObj) {M : Type} [AddCommMonoid M] (f : Arr ℂ → M) :
    ((o.krausOperators eigh).map f).sum = ∑ i ∈ Finset.range (eigh o.choi).2.rows,
      if (1 : ℝ) / 10 ^ 8 < (eigh o.choi).1 i then f (o.krausOp (eigh o.choi).1 (eigh o.choi).2 i) else 0 := by
  unfold ChoiObj.krausOperators
  simp only
  generalize (eigh o.choi).2.rows = n
  induction n with
  | zero => simp
  | succ n ih =>
    rw [List.range_succ, List.filterMap_append, List.map_append, List.sum_append, ih, Finset.sum_range_succ]
    congr 1
    by_cases h : (1 : ℝ) / 10 ^ 8 < (eigh o.choi).1 n
    · simp only [List.filterMap_cons, List.filterMap_nil, if_pos h, List.map_cons, List.map_nil, List.sum_cons,
        List.sum_nil, add_zero]
    · simp only [List.filterMap_cons, List.filterMap_nil, if_neg h, List.map_nil, List.sum_nil]

theorem diag_sandwich {n : ℕ} (V : Matrix (Fin n) (Fin n) ℂ) (f : Fin n → ℂ) (r c : Fin n) :
    (V * diagonal f * Vᴴ) r c = ∑ i, V r i * f i * star (V c i) := by
  rw [Matrix.mul_apply]
  simp only [mul_diagonal, conjTranspose_apply]

theorem diag_sandwich_posSemidef {n : ℕ} (V : Matrix (Fin n) (Fin n) ℂ) (f : Fin n → ℝ) (hf : ∀ i, 0 ≤ f i) :
    (V * diagonal (fun i => (f i : ℂ)) * Vᴴ).PosSemidef := by
  apply PosSemidef.mul_mul_conjTranspose_same
  rw [posSemidef_diagonal_iff]
  intro i
  exact_mod_cast hf i

/-- C33.  For every eigenbasis: the operators returned by `kraus_operators` of a positive semidefinite
Choi matrix `C` have the right shape, and their Choi matrix differs from `C` by a positive semidefinite
matrix that is at most `1e-8`; it is exactly `C` if `C` has no eigenvalue in `(0, 1e-8]`. -/
theorem C33_kraus_operators (eigh : Eigh) (heigh : eigh.Correct) (h : ChoiObj.init q C a b d e = .ok o)
    (hsq : C.rows = C.cols) (hpos : (C.mat (d ^ a * e ^ b) (d ^ a * e ^ b)).PosSemidef) :
    (∀ K ∈ o.krausOperators eigh, K.rows = e ^ b ∧ K.cols = d ^ a) ∧
    ∃ R : Matrix (Fin (d ^ a * e ^ b)) (Fin (d ^ a * e ^ b)) ℂ,
      C.mat (d ^ a * e ^ b) (d ^ a * e ^ b) =
        ((o.krausOperators eigh).map fun K => vecMulVec (Spec.vec (K.mat (e ^ b) (d ^ a)))
          (star (Spec.vec (K.mat (e ^ b) (d ^ a))))).sum + R ∧
      R.PosSemidef ∧ (((1 / 10 ^ 8 : ℝ) : ℂ) • (1 : Matrix _ _ ℂ) - R).PosSemidef ∧
      ((∀ i < d ^ a * e ^ b, (eigh C).1 i ≤ 0 ∨ (1 : ℝ) / 10 ^ 8 < (eigh C).1 i) → R = 0) := by
  obtain ⟨rfl, hcols⟩ := choiInit_ok h
  have hc' : C.cols = d ^ a * e ^ b := hcols.trans (Nat.mul_comm _ _)
  obtain ⟨v1, v2, -, v4, v5⟩ := heigh C (d ^ a * e ^ b) (hsq.trans hc') hc' hpos.isHermitian
  set w := (eigh C).1
  set V := (eigh C).2.mat (d ^ a * e ^ b) (d ^ a * e ^ b) with hV
  have v6 : V * Vᴴ = 1 := mul_eq_one_comm.mp v4
  have hA : C.mat (d ^ a * e ^ b) (d ^ a * e ^ b) =
      V * diagonal (fun i : Fin (d ^ a * e ^ b) => ((w i : ℝ) : ℂ)) * Vᴴ := by
    rw [← v5, Matrix.mul_assoc, v6, Matrix.mul_one]
  have hw : ∀ i : Fin (d ^ a * e ^ b), 0 ≤ w i := by
    have hD : diagonal (fun i : Fin (d ^ a * e ^ b) => ((w i : ℝ) : ℂ)) =
        Vᴴ * C.mat (d ^ a * e ^ b) (d ^ a * e ^ b) * V := by
      rw [hA, Matrix.mul_assoc, Matrix.mul_assoc, Matrix.mul_assoc, v4, Matrix.mul_one, ← Matrix.mul_assoc, v4,
        Matrix.one_mul]
    have hP : (diagonal (fun i : Fin (d ^ a * e ^ b) => ((w i : ℝ) : ℂ))).PosSemidef := by
      rw [hD]
      exact hpos.conjTranspose_mul_mul_same V
    rw [posSemidef_diagonal_iff] at hP
    intro i
    exact_mod_cast hP i
  refine ⟨?_, V * diagonal (fun i : Fin (d ^ a * e ^ b) =>
      (((if (1 : ℝ) / 10 ^ 8 < w i then 0 else w i : ℝ)) : ℂ)) * Vᴴ, ?_, ?_, ?_, ?_⟩
  · intro K hK
    unfold ChoiObj.krausOperators at hK
    simp only [List.mem_filterMap] at hK
    obtain ⟨i, -, hi⟩ := hK
    split_ifs at hi
    injection hi with hi
    subst hi
    exact ⟨rfl, rfl⟩
  · rw [krausOperators_sum]
    simp only
    rw [v1, hA]
    ext r c
    rw [Matrix.add_apply, Matrix.sum_apply, diag_sandwich, diag_sandwich, Finset.sum_range,
      ← Finset.sum_add_distrib]
    apply Finset.sum_congr rfl
    intro i _
    change _ = (if (1 : ℝ) / 10 ^ 8 < w i then _ else _ : Matrix _ _ ℂ) r c + _
    have hent : ∀ r : Fin (d ^ a * e ^ b),
        Spec.vec ((ChoiObj.krausOp ⟨C, a, b, d, e⟩ w (eigh C).2 i).mat (e ^ b) (d ^ a)) r =
          V r i * (Real.sqrt (w i) : ℂ) := by
      intro r
      change (eigh C).2.get (r % e ^ b + e ^ b * (r / e ^ b)) i * _ = _
      rw [Nat.mod_add_div]
      rfl
    by_cases hi : (1 : ℝ) / 10 ^ 8 < w i
    · rw [if_pos hi, if_pos hi, vecMulVec_apply, Pi.star_apply, hent, hent]
      have hs : ((Real.sqrt (w i) : ℝ) : ℂ) * (Real.sqrt (w i) : ℝ) = (w i : ℝ) := by
        rw [← Complex.ofReal_mul, Real.mul_self_sqrt (hw i)]
      rw [← hs]
      simp only [star_mul', Complex.star_def, Complex.conj_ofReal, Complex.ofReal_zero]
      ring
    · rw [if_neg hi, if_neg hi]
      simp
  · exact diag_sandwich_posSemidef V _ (fun i => by split_ifs <;> [exact le_rfl; exact hw i])
  · have : (((1 / 10 ^ 8 : ℝ) : ℂ) • (1 : Matrix (Fin (d ^ a * e ^ b)) (Fin (d ^ a * e ^ b)) ℂ)) =
        V * diagonal (fun _ => ((1 / 10 ^ 8 : ℝ) : ℂ)) * Vᴴ := by
      rw [← smul_one_eq_diagonal, Matrix.mul_smul, Matrix.smul_mul, Matrix.mul_one, v6]
    rw [this, ← Matrix.sub_mul, ← Matrix.mul_sub, diagonal_sub]
    have : ∀ i : Fin (d ^ a * e ^ b), ((1 / 10 ^ 8 : ℝ) : ℂ) -
        (((if (1 : ℝ) / 10 ^ 8 < w i then 0 else w i : ℝ)) : ℂ) =
        ((1 / 10 ^ 8 - (if (1 : ℝ) / 10 ^ 8 < w i then 0 else w i) : ℝ) : ℂ) := by
      intro i; push_cast; ring
    simp only [this]
    apply diag_sandwich_posSemidef V
    intro i
    split_ifs with hi
    · norm_num
    · linarith [not_lt.mp hi]
  · intro hgap
    have : ∀ i : Fin (d ^ a * e ^ b), (((if (1 : ℝ) / 10 ^ 8 < w i then 0 else w i : ℝ)) : ℂ) = 0 := by
      intro i
      rcases hgap i i.2 with hi | hi
      · have : w i = 0 := le_antisymm hi (hw i)
        rw [this]
        simp
      · rw [if_pos hi]; simp
    simp only [this]
    rw [show (diagonal fun _ : Fin (d ^ a * e ^ b) => (0 : ℂ)) = 0 from diagonal_zero]
    simp

theorem choiChannel_list {n m : ℕ} (L : List (Matrix (Fin (n * m)) (Fin (n * m)) ℂ))
    (ρ : Matrix (Fin n) (Fin n) ℂ) :
    Spec.choiChannel L.sum ρ = (L.map fun C => Spec.choiChannel C ρ).sum := by
  induction L with
  | nil => ext x x'; simp [Spec.choiChannel]
  | cons C L ih =>
    rw [List.sum_cons, List.map_cons, List.sum_cons, ← ih]
    ext x x'
    simp only [Spec.choiChannel, Matrix.add_apply, mul_add, Finset.sum_add_distrib]

/-- C33.  Hence, without eigenvalues in `(0, 1e-8]`, the operators returned by `kraus_operators` describe
the same channel as the Choi matrix, for every eigenbasis. -/
theorem C33_kraus_operators_channel (eigh : Eigh) (heigh : eigh.Correct)
    (h : ChoiObj.init q C a b d e = .ok o)
    (hsq : C.rows = C.cols) (hpos : (C.mat (d ^ a * e ^ b) (d ^ a * e ^ b)).PosSemidef)
    (hgap : ∀ i < d ^ a * e ^ b, (eigh C).1 i ≤ 0 ∨ (1 : ℝ) / 10 ^ 8 < (eigh C).1 i)
    (ρ : Matrix (Fin (d ^ a)) (Fin (d ^ a)) ℂ) :
    ((o.krausOperators eigh).map fun K =>
      K.mat (e ^ b) (d ^ a) * ρ * (K.mat (e ^ b) (d ^ a))ᴴ).sum =
      Spec.choiChannel (C.mat (d ^ a * e ^ b) (d ^ a * e ^ b)) ρ := by
  obtain ⟨-, R, hR, -, -, h0⟩ := C33_kraus_operators eigh heigh h hsq hpos
  rw [hR, h0 hgap, add_zero, choiChannel_list, List.map_map]
  congr 1
  apply List.map_congr_left
  intro K _
  have := Spec.choiChannel_choi (fun _ : Unit => K.mat (e ^ b) (d ^ a)) ρ
  simp only [Spec.choi, Spec.applyKraus, Finset.univ_unique, Finset.sum_singleton] at this
  exact this.symm

/-- C33, error branches: the constructor raises `ValueError` for a matrix of the wrong size, `channel`
raises `AssertionError` for `n ≠ 1` and `ValueError` for a `rho` with the wrong number of columns,
`entropy_exchange` raises `AssertionError`. -/
theorem C33_errors :
    (C.cols ≠ e ^ b * d ^ a → ChoiObj.init q C a b d e = .error .value) ∧
    (∀ (rho : Arr ℂ) (n : ℕ) (adj : Bool), n ≠ 1 → ChoiQ.channel o rho n adj = .error .assertion) ∧
    (∀ (rho : Arr ℂ) (n : ℕ), ChoiQ.entropyExchange o rho n = .error .assertion) ∧
    (ChoiObj.init q C a b d e = .ok o → 0 < e ^ b → ∀ rho : Arr ℂ, rho.cols ≠ d ^ a →
      ChoiQ.channel o rho 1 false = .error .value) := by
  refine ⟨?_, ?_, fun _ _ => rfl, ?_⟩
  · intro h
    unfold ChoiObj.init
    rw [if_pos h]
  · intro rho n adj hn
    unfold ChoiQ.channel pyAssert
    rw [if_neg hn]
    rfl
  · intro h he rho hrho
    obtain ⟨rfl, hcols⟩ := choiInit_ok h
    have hdot : C.dot (rho.transpose.kron (Arr.eye (e ^ b))) = .error .value := by
      unfold Arr.dot
      rw [if_neg]
      change C.cols ≠ rho.cols * e ^ b
      rw [hcols, Nat.mul_comm]
      intro hh
      exact hrho (Nat.eq_of_mul_eq_mul_right he hh).symm
    unfold ChoiQ.channel ChoiObj.channel ChoiObj.outputDim
    simp only [hdot]
    rfl

/-- The Choi matrix of the dephasing channel, `∑ vec K (vec K)†` over its two operators. -/
noncomputable def dephChoi : Arr ℂ := Arr.ofMat (Spec.choi (dephOps.ops 2 2 2))

theorem choi_posSemidef {ι : Type} [Fintype ι] {n m : ℕ} (K : ι → Matrix (Fin m) (Fin n) ℂ) :
    (Spec.choi K).PosSemidef :=
  posSemidef_sum _ fun k _ => posSemidef_vecMulVec_self_star (Spec.vec (K k))

/-- The hypotheses of C33 are met by the dephasing channel, for every pair of accepting checks, and for an
eigenvalue routine that exists. -/
example (rho : Arr ℂ) (hr : rho.rows = 2) (hc : rho.cols = 2) :
    ∃ (o : ChoiObj) (k : KrausObj) (eigh : Eigh) (x y : Arr ℂ), eigh.Correct ∧
      ChoiObj.init ⟨fun _ _ _ => true, fun _ _ _ => true⟩ dephChoi 1 1 2 2 = .ok o ∧
      QChan.init true dephOps 1 1 2 2 [] = .ok k ∧
      ChoiQ.channel o rho 1 false = .ok x ∧ (QChan.channel k rho 1 false).1 = .ok y ∧ Arr.Same x y ∧
      (∀ K ∈ o.krausOperators eigh, K.rows = 2 ∧ K.cols = 2) := by
  obtain ⟨k, hk⟩ := deph_ok true []
  obtain ⟨eigh, heigh⟩ := exists_eigh
  have ho : ChoiObj.init ⟨fun _ _ _ => true, fun _ _ _ => true⟩ dephChoi 1 1 2 2 = .ok ⟨dephChoi, 1, 1, 2, 2⟩ :=
    rfl
  have hC : dephChoi.mat (2 ^ 1 * 2 ^ 1) (2 ^ 1 * 2 ^ 1) = Spec.choi (dephOps.ops dephOps.len (2 ^ 1) (2 ^ 1)) :=
    Arr.ofMat_mat _
  obtain ⟨x, y, h1, h2, h3⟩ := C33_choi_equals_kraus ho rfl hk [] ⟨by simp, by simp⟩ hC rho hr hc
  refine ⟨_, k, eigh, x, y, heigh, ho, hk, h1, h2, h3, ?_⟩
  exact (C33_kraus_operators eigh heigh ho rfl (by rw [hC]; exact choi_posSemidef _)).1

end PyQ
