import Verif.Props.Degradable
import Verif.Props.ChoiInfo
import Verif.Lemmas.Depolarizing

/-!
# C114: channels that cannot transmit quantum information
-/

namespace PyQ

open Matrix Spec
open scoped ComplexOrder

variable {eig : Eigvalsh}

/-- One use of `o` delivers what one use of `t` makes of the transposed input: `o.channel(x, 1)` is `t.channel(x.T, 1)` for every
`x` of `N` rows and columns. -/
def TransposedBy (o t : KrausObj) (N : ℕ) : Prop :=
  ∀ x x' : Arr ℂ, x.rows = N → x.cols = N → x'.rows = N → x'.cols = N → (∀ i < N, ∀ j < N, x'.get i j = x.get j i) →
    ∃ y z, (QChan.channel o x 1 false).1 = .ok y ∧ (QChan.channel t x' 1 false).1 = .ok z ∧ Arr.Same y z

section

variable {sp₁ sp : Bool} {ops₁ ops : Arr3 ℂ} {a b d e : ℕ} {orth₁ orth : List ℕ} {t o : KrausObj}
  {c₀ c₁ : List QChan.Call}

/-- The two objects in terms of operators. -/
theorem transposed_ops (ht : QChan.init sp₁ ops₁ a b d e orth₁ = .ok t) (h : QChan.init sp ops a b d e orth = .ok o)
    (h₀ : SafeUses sp (c₀.map QChan.Call.uses ++ [1])) (h₁ : SafeUses sp₁ (c₁.map QChan.Call.uses ++ [1]))
    (htr : TransposedBy (QChan.history o c₀) (QChan.history t c₁) (d ^ a)) (ρ : Matrix (Fin (d ^ a)) (Fin (d ^ a)) ℂ) :
    applyKraus (ops.ops ops.len (e ^ b) (d ^ a)) ρ = applyKraus (ops₁.ops ops₁.len (e ^ b) (d ^ a)) ρᵀ := by
  obtain ⟨y, z, hy, hz, hsame⟩ := htr (Arr.ofMat ρ) (Arr.ofMat ρᵀ) rfl rfl rfl rfl fun i hi j hj => by
    simp [Arr.ofMat, hi, hj]
  obtain ⟨y', y1, y2, y3, y4⟩ := api_channel_one h c₀ h₀ (Arr.ofMat ρ) rfl rfl
  obtain ⟨z', z1, z2, z3, z4⟩ := api_channel_one ht c₁ h₁ (Arr.ofMat ρᵀ) rfl rfl
  rw [hy] at y1
  rw [hz] at z1
  injection y1 with y1
  injection z1 with z1
  subst y1 z1
  rw [Arr.same_iff_mat, y2, y3] at hsame
  rw [Arr.ofMat_mat] at y4 z4
  rw [← y4, ← z4, hsame.2.2]

theorem useless_of (heig : eig.Correct) (h : QChan.init sp ops a b d e orth = .ok o) (ho : sp = true ∨ orth = [])
    (htp : TracePreserving (ops.ops ops.len (e ^ b) (d ^ a)))
    (calls : List QChan.Call) (n : ℕ) (hsafe : SafeUses sp (calls.map QChan.Call.uses ++ [n]))
    (rho : Arr ℂ) (hr : rho.rows = (d ^ a) ^ n) (hc : rho.cols = (d ^ a) ^ n)
    (hrho : IsDensity (rho.mat ((d ^ a) ^ n) ((d ^ a) ^ n)))
    (key : krausInfo (tensorPow (ops.ops ops.len (e ^ b) (d ^ a)) n) (rho.mat ((d ^ a) ^ n) ((d ^ a) ^ n)) ≤ 0) :
    ∃ v, (QChan.coherentInformation eig (QChan.history o calls) rho n false).1 = .ok v ∧
      v ≤ (ops.len ^ n : ℕ) * (4 / 10 ^ 9) := by
  have hlog : 0 < Real.log 2 := Real.log_pos (by norm_num)
  obtain ⟨v, hv, v1, -⟩ := api_info heig h ho htp calls n hsafe rho hr hc hrho
  have key2 := div_le_div_of_nonneg_right key hlog.le
  rw [zero_div] at key2
  exact ⟨v, hv, by linarith⟩

/-- **C114, transposed inputs**.  If a channel stays a channel when its input is transposed first (some object `t` does that), then
no input has positive coherent information, for any number of uses, up to the cut-off of small eigenvalues. -/
theorem C114_transposed (heig : eig.Correct) (ht : QChan.init sp₁ ops₁ a b d e orth₁ = .ok t)
    (h : QChan.init sp ops a b d e orth = .ok o) (ho : sp = true ∨ orth = [])
    (htp : TracePreserving (ops.ops ops.len (e ^ b) (d ^ a)))
    (h₀ : SafeUses sp (c₀.map QChan.Call.uses ++ [1])) (h₁ : SafeUses sp₁ (c₁.map QChan.Call.uses ++ [1]))
    (htr : TransposedBy (QChan.history o c₀) (QChan.history t c₁) (d ^ a))
    (calls : List QChan.Call) (n : ℕ) (hsafe : SafeUses sp (calls.map QChan.Call.uses ++ [n]))
    (rho : Arr ℂ) (hr : rho.rows = (d ^ a) ^ n) (hc : rho.cols = (d ^ a) ^ n)
    (hrho : IsDensity (rho.mat ((d ^ a) ^ n) ((d ^ a) ^ n))) :
    ∃ v, (QChan.coherentInformation eig (QChan.history o calls) rho n false).1 = .ok v ∧
      v ≤ (ops.len ^ n : ℕ) * (4 / 10 ^ 9) :=
  useless_of heig h ho htp calls n hsafe rho hr hc hrho
    (transposable_nonpos _ _ (transposable_pow _ _ ((transposable_iff _ _).mp (transposed_ops ht h h₀ h₁ htr)) n) hrho.1)

/-- **C114, measure and prepare**.  A channel whose Kraus operators all have rank one, that is, one that measures its input and
prepares a state according to the result, has no positive coherent information, for any number of uses and any input. -/
theorem C114_measure (heig : eig.Correct) (h : QChan.init sp ops a b d e orth = .ok o) (ho : sp = true ∨ orth = [])
    (htp : TracePreserving (ops.ops ops.len (e ^ b) (d ^ a)))
    (hrank : ∀ k, ∃ u v, ops.ops ops.len (e ^ b) (d ^ a) k = vecMulVec u v)
    (calls : List QChan.Call) (n : ℕ) (hsafe : SafeUses sp (calls.map QChan.Call.uses ++ [n]))
    (rho : Arr ℂ) (hr : rho.rows = (d ^ a) ^ n) (hc : rho.cols = (d ^ a) ^ n)
    (hrho : IsDensity (rho.mat ((d ^ a) ^ n) ((d ^ a) ^ n))) :
    ∃ v, (QChan.coherentInformation eig (QChan.history o calls) rho n false).1 = .ok v ∧
      v ≤ (ops.len ^ n : ℕ) * (4 / 10 ^ 9) := by
  choose u v huv using hrank
  refine useless_of heig h ho htp calls n hsafe rho hr hc hrho
    (transposable_nonpos _ _ (transposable_pow _ (fun k => vecMulVec (u k) (star (v k))) (fun x y x' y' => ?_) n) hrho.1)
  refine Finset.sum_congr rfl fun k _ => ?_
  rw [huv]
  simp only [vecMulVec_apply, Pi.star_apply, star_mul', star_star]
  ring

/-- **C114, Pauli noise**.  If neither an error nor its absence has a probability above a half, Pauli noise leaves no positive
coherent information. -/
theorem C114_pauli (heig : eig.Correct) (h : QChan.init sp ops 1 1 2 2 orth = .ok o) (ho : sp = true ∨ orth = []) {w : Fin 4 → ℝ}
    (h0 : ∀ i, 0 ≤ w i) (h1 : ∑ i, w i = 1) (hw : ∀ i, w i ≤ 1 / 2)
    (hl : ops.len = 4) (hops : ops.ops 4 2 2 = pauliNoise w)
    (calls : List QChan.Call) (n : ℕ) (hsafe : SafeUses sp (calls.map QChan.Call.uses ++ [n]))
    (rho : Arr ℂ) (hr : rho.rows = 2 ^ n) (hc : rho.cols = 2 ^ n) (hrho : IsDensity (rho.mat (2 ^ n) (2 ^ n))) :
    ∃ v, (QChan.coherentInformation eig (QChan.history o calls) rho n false).1 = .ok v ∧ v ≤ 4 ^ n * (4 / 10 ^ 9) := by
  have key := pauli_useless h0 h1 hw n hrho.1
  have htp := pauliNoise_tp h0 h1
  rw [← hops] at key htp
  have := useless_of heig h ho (by rw [hl]; exact htp) calls n hsafe rho hr hc hrho (by rw [hl]; exact key)
  rw [hl] at this
  exact_mod_cast this

/-- **C114, depolarizing noise**.  If an error happens with probability at least `1/4`, depolarizing noise leaves no positive
coherent information: not for entangled inputs of any number of uses either. -/
theorem C114_depolarizing (heig : eig.Correct) (h : QChan.init sp ops 1 1 2 2 orth = .ok o) (ho : sp = true ∨ orth = []) {p : ℝ}
    (h0 : 1 / 4 ≤ p) (h1 : p ≤ 1) (hl : ops.len = 4) (hops : ops.ops 4 2 2 = depolarizing p)
    (calls : List QChan.Call) (n : ℕ) (hsafe : SafeUses sp (calls.map QChan.Call.uses ++ [n]))
    (rho : Arr ℂ) (hr : rho.rows = 2 ^ n) (hc : rho.cols = 2 ^ n) (hrho : IsDensity (rho.mat (2 ^ n) (2 ^ n))) :
    ∃ v, (QChan.coherentInformation eig (QChan.history o calls) rho n false).1 = .ok v ∧ v ≤ 4 ^ n * (4 / 10 ^ 9) := by
  have key := depolarizing_useless h0 h1 n hrho.1
  have htp := depolarizing_tp (by linarith) h1
  rw [← hops] at key htp
  have := useless_of heig h ho (by rw [hl]; exact htp) calls n hsafe rho hr hc hrho (by rw [hl]; exact key)
  rw [hl] at this
  exact_mod_cast this

/-- **C114, transposition is no channel**.  No object transposes every matrix with at least two rows. -/
theorem C114_no_transpose (h : QChan.init sp ops a a d d orth = .ok o) (calls : List QChan.Call)
    (hsafe : SafeUses sp (calls.map QChan.Call.uses ++ [1])) (hd : 2 ≤ d ^ a) :
    ¬ ∀ x : Arr ℂ, x.rows = d ^ a → x.cols = d ^ a → ∃ y, (QChan.channel (QChan.history o calls) x 1 false).1 = .ok y ∧
      ∀ i < d ^ a, ∀ j < d ^ a, y.get i j = x.get j i := by
  intro hx
  have key : ∀ ρ, applyKraus (fun _ : Fin 1 => (1 : Matrix (Fin (d ^ a)) (Fin (d ^ a)) ℂ)) ρ =
      applyKraus (ops.ops ops.len (d ^ a) (d ^ a)) ρᵀ := by
    intro ρ
    obtain ⟨y, hy, hy'⟩ := hx (Arr.ofMat ρᵀ) rfl rfl
    obtain ⟨z, z1, -, -, z4⟩ := api_channel_one h calls hsafe (Arr.ofMat ρᵀ) rfl rfl
    rw [hy] at z1
    injection z1 with z1
    subst z1
    rw [Arr.ofMat_mat] at z4
    rw [← z4]
    ext i j
    have := hy' i i.2 j j.2
    simp only [Arr.mat]
    rw [this]
    simp [applyKraus, Arr.ofMat]
  rw [transposable_iff] at key
  set G := ops.ops ops.len (d ^ a) (d ^ a)
  obtain ⟨i, j, hij⟩ : ∃ i j : Fin (d ^ a), i ≠ j := ⟨⟨0, by omega⟩, ⟨1, by omega⟩, by simp⟩
  have k1 := key i j i j
  have k2 := key i i j j
  have z : ∀ g, G g i j = 0 := by
    have : ∑ g, Complex.normSq (G g i j) = 0 := by
      have e : ((∑ g, Complex.normSq (G g i j) : ℝ) : ℂ) = 0 := by
        rw [Complex.ofReal_sum, ← Finset.sum_congr rfl fun g _ => Complex.mul_conj (G g i j)]
        exact k1.symm.trans (by simp [hij])
      exact_mod_cast e
    intro g
    have := (Finset.sum_eq_zero_iff_of_nonneg fun g _ => Complex.normSq_nonneg (G g i j)).mp this g (Finset.mem_univ g)
    exact Complex.normSq_eq_zero.mp this
  simp [z] at k2

end

/-- **C114, Choi matrices**.  For an object built from the Choi matrix of a channel whose partial transpose is positive,
`coherent_information` is not positive for any state, up to the cut-off of small eigenvalues. -/
theorem C114_choi (heig : eig.Correct) {sqrtm : Sqrtm} (hsqrt : sqrtm.Correct) {q : QutipChecks} {C : Arr ℂ} {a d e : ℕ}
    {o : ChoiObj} (h : ChoiObj.init q C a a d e = .ok o) (hsq : C.rows = C.cols)
    (hC : (C.mat (d ^ a * e ^ a) (d ^ a * e ^ a)).PosSemidef)
    (htp : traceOutput (C.mat (d ^ a * e ^ a) (d ^ a * e ^ a)) = 1)
    (hpt : (transposeInput (C.mat (d ^ a * e ^ a) (d ^ a * e ^ a))).PosSemidef)
    (rho : Arr ℂ) (hr : rho.rows = d ^ a) (hc : rho.cols = d ^ a) (hrho : IsDensity (rho.mat (d ^ a) (d ^ a))) :
    ∃ v, ChoiQ.coherentInformation eig sqrtm o rho 1 false = .ok v ∧ v ≤ (d ^ a * e ^ a : ℕ) * (4 / 10 ^ 9) := by
  obtain ⟨S, hS⟩ := exists_factor hC
  obtain ⟨T, hT⟩ := exists_factor hpt
  set K : Fin (d ^ a * e ^ a) → Matrix (Fin (e ^ a)) (Fin (d ^ a)) ℂ := fun k => of fun x y => S (finProdFinEquiv (y, x)) k with hKdef
  set G : Fin (d ^ a * e ^ a) → Matrix (Fin (e ^ a)) (Fin (d ^ a)) ℂ := fun k => of fun x y => T (finProdFinEquiv (y, x)) k with hGdef
  have hK : ∀ x y x' y', ∑ k, K k x y * star (K k x' y') =
      C.mat (d ^ a * e ^ a) (d ^ a * e ^ a) (finProdFinEquiv (y, x)) (finProdFinEquiv (y', x')) := by
    intro x y x' y'
    rw [hS, Matrix.mul_apply]
    rfl
  have hG : ∀ x y x' y', ∑ k, G k x y * star (G k x' y') =
      C.mat (d ^ a * e ^ a) (d ^ a * e ^ a) (finProdFinEquiv (y', x)) (finProdFinEquiv (y, x')) := by
    intro x y x' y'
    have e1 : transposeInput (C.mat (d ^ a * e ^ a) (d ^ a * e ^ a)) (finProdFinEquiv (y, x)) (finProdFinEquiv (y', x')) =
        C.mat (d ^ a * e ^ a) (d ^ a * e ^ a) (finProdFinEquiv (y', x)) (finProdFinEquiv (y, x')) := by
      have d1 : ∀ (y : Fin (d ^ a)) (x : Fin (e ^ a)), (finProdFinEquiv (y, x)).divNat = y := fun y x =>
        congrArg Prod.fst (finProdFinEquiv.symm_apply_apply (y, x))
      have d2 : ∀ (y : Fin (d ^ a)) (x : Fin (e ^ a)), (finProdFinEquiv (y, x)).modNat = x := fun y x =>
        congrArg Prod.snd (finProdFinEquiv.symm_apply_apply (y, x))
      unfold transposeInput
      rw [d1, d1, d2, d2]
    rw [← e1, hT, Matrix.mul_apply]
    rfl
  have hCK : C.mat (d ^ a * e ^ a) (d ^ a * e ^ a) = choi K := by
    ext i j
    obtain ⟨⟨y, x⟩, rfl⟩ := finProdFinEquiv.surjective i
    obtain ⟨⟨y', x'⟩, rfl⟩ := finProdFinEquiv.surjective j
    rw [choi_apply, hK]
  have htpK : TracePreserving K := by rw [tp_iff_traceOutput, ← hCK]; exact htp
  have hpos : 0 < d ^ a * e ^ a := by
    rcases Nat.eq_zero_or_pos (d ^ a * e ^ a) with h0 | h0
    · exfalso
      rcases Nat.mul_eq_zero.mp h0 with h0 | h0
      · have h2 := hrho.2
        have : IsEmpty (Fin (d ^ a)) := by rw [h0]; infer_instance
        simp [trace] at h2
      · have h2 := (Spec.applyKraus_trace K htpK (rho.mat (d ^ a) (d ^ a))).trans hrho.2
        have : IsEmpty (Fin (e ^ a)) := by rw [h0]; infer_instance
        simp [trace] at h2
    · exact h0
  obtain ⟨k, hk⟩ := opsArr_init false (a := a) (b := a) (d := d) (e := e) K hpos htpK []
  have hops : (opsArr K).ops (opsArr K).len (e ^ a) (d ^ a) = K := opsArr_ops K
  obtain ⟨v, v1, v2⟩ := C34_coherent_information heig hsqrt h hsq hk (Or.inr rfl) [] ⟨by simp, by simp⟩ (by rw [hops]; exact hCK)
    rho hr hc hrho.1 false
  obtain ⟨v', w1, w2, -⟩ := api_info_one heig hk (Or.inr rfl) (by rw [hops]; exact htpK) [] ⟨by simp, by simp⟩ rho hr hc hrho
  rw [v2] at w1
  injection w1 with w1
  subst w1
  refine ⟨v, v1, ?_⟩
  rw [hops] at w2
  have key := transposable_nonpos K G (fun x y x' y' => by rw [hK, hG]) hrho.1
  have key2 := div_le_div_of_nonneg_right key (Real.log_pos (by norm_num : (1 : ℝ) < 2)).le
  rw [zero_div] at key2
  have w3 : v ≤ krausInfo K (rho.mat (d ^ a) (d ^ a)) / Real.log 2 + (d ^ a * e ^ a : ℕ) * (4 / 10 ^ 9) := w2
  linarith

/-! ### Instances -/

/-- The hypotheses of the first two theorems are met: the measurement of a qubit, as a dense object, is not changed when its input
is transposed, and its operators have rank one. -/
example : ∃ o, QChan.init false (opsArr fun k : Fin 2 => Matrix.single k k (1 : ℂ)) 1 1 2 2 [] = .ok o ∧
    TracePreserving ((opsArr fun k : Fin 2 => Matrix.single k k (1 : ℂ)).ops 2 2 2) ∧
    (∀ k, ∃ u v, (opsArr fun k : Fin 2 => Matrix.single k k (1 : ℂ)).ops 2 2 2 k = vecMulVec u v) ∧
    TransposedBy o o 2 := by
  have htp : TracePreserving fun k : Fin 2 => Matrix.single k k (1 : ℂ) := by
    rw [tp_apply]
    intro i j
    fin_cases i <;> fin_cases j <;> simp [Fin.sum_univ_two, Matrix.single]
  obtain ⟨o, ho⟩ := opsArr_init false (a := 1) (b := 1) (d := 2) (e := 2) (fun k : Fin 2 => Matrix.single k k (1 : ℂ))
    (by decide) htp []
  refine ⟨o, ho, ?_, ?_, ?_⟩
  · rw [opsArr_ops]; exact htp
  · rw [opsArr_ops]
    intro k
    refine ⟨Pi.single k 1, Pi.single k 1, ?_⟩
    ext i j
    fin_cases k <;> fin_cases i <;> fin_cases j <;> simp [vecMulVec_apply, Matrix.single]
  · intro x x' h1 h2 h3 h4 h5
    obtain ⟨y, y1, y2, y3, y4⟩ := api_channel_one ho [] ⟨by simp, by simp⟩ x h1 h2
    obtain ⟨z, z1, z2, z3, z4⟩ := api_channel_one ho [] ⟨by simp, by simp⟩ x' h3 h4
    refine ⟨y, z, y1, z1, ?_⟩
    rw [Arr.same_iff_mat]
    refine ⟨y2.trans z2.symm, y3.trans z3.symm, ?_⟩
    rw [y2, y3, y4, z4]
    have e1 : x'.mat 2 2 = (x.mat 2 2)ᵀ := by
      ext i j
      exact h5 i i.2 j j.2
    have e2 : (opsArr fun k : Fin 2 => Matrix.single k k (1 : ℂ)).ops (opsArr fun k : Fin 2 => Matrix.single k k (1 : ℂ)).len
        (2 ^ 1) (2 ^ 1) = fun k : Fin 2 => Matrix.single k k (1 : ℂ) := opsArr_ops _
    rw [e2]
    show applyKraus (fun k : Fin 2 => Matrix.single k k (1 : ℂ)) (x.mat 2 2) =
      applyKraus (fun k : Fin 2 => Matrix.single k k (1 : ℂ)) (x'.mat 2 2)
    rw [e1]
    refine (transposable_iff _ _).mpr (fun a b a' b' => ?_) _
    fin_cases a <;> fin_cases b <;> fin_cases a' <;> fin_cases b' <;> simp [Fin.sum_univ_two, Matrix.single]

/-- The hypotheses for Pauli noise are met with four different probabilities, and those for depolarizing noise with `1/4`. -/
example (sp : Bool) : ∃ o o', QChan.init sp (opsArr (pauliNoise ![1 / 2, 1 / 4, 1 / 8, 1 / 8])) 1 1 2 2 [] = .ok o ∧
    QChan.init sp (opsArr (depolarizing (1 / 4))) 1 1 2 2 [] = .ok o' ∧
    (∀ i, (0 : ℝ) ≤ ![1 / 2, 1 / 4, 1 / 8, 1 / 8] i) ∧ ∑ i, ![(1 / 2 : ℝ), 1 / 4, 1 / 8, 1 / 8] i = 1 ∧
    (∀ i, ![(1 / 2 : ℝ), 1 / 4, 1 / 8, 1 / 8] i ≤ 1 / 2) ∧
    (opsArr (pauliNoise ![1 / 2, 1 / 4, 1 / 8, 1 / 8])).ops 4 2 2 = pauliNoise ![1 / 2, 1 / 4, 1 / 8, 1 / 8] ∧
    (opsArr (depolarizing (1 / 4))).ops 4 2 2 = depolarizing (1 / 4) := by
  have h0 : ∀ i, (0 : ℝ) ≤ ![1 / 2, 1 / 4, 1 / 8, 1 / 8] i := fun i => by fin_cases i <;> simp
  have h1 : ∑ i, ![(1 / 2 : ℝ), 1 / 4, 1 / 8, 1 / 8] i = 1 := by simp [Fin.sum_univ_four]; norm_num
  obtain ⟨o, ho⟩ := opsArr_init sp (a := 1) (b := 1) (d := 2) (e := 2) (pauliNoise ![1 / 2, 1 / 4, 1 / 8, 1 / 8]) (by decide)
    (pauliNoise_tp h0 h1) []
  obtain ⟨o', ho'⟩ := opsArr_init sp (a := 1) (b := 1) (d := 2) (e := 2) (depolarizing (1 / 4)) (by decide)
    (depolarizing_tp (by norm_num) (by norm_num)) []
  exact ⟨o, o', ho, ho', h0, h1, fun i => by fin_cases i <;> norm_num, opsArr_ops _, opsArr_ops _⟩

/-- The hypotheses for Choi matrices are met: the channel whose output is always the maximally mixed state. -/
example : ∃ o, ChoiObj.init ⟨fun _ _ _ => true, fun _ _ _ => true⟩ (Arr.ofMat ((1 / 2 : ℂ) • (1 : Matrix (Fin (2 * 2)) (Fin (2 * 2)) ℂ)))
      1 1 2 2 = .ok o ∧ ((1 / 2 : ℂ) • (1 : Matrix (Fin (2 * 2)) (Fin (2 * 2)) ℂ)).PosSemidef ∧
    traceOutput ((1 / 2 : ℂ) • (1 : Matrix (Fin (2 * 2)) (Fin (2 * 2)) ℂ)) = 1 ∧
    (transposeInput ((1 / 2 : ℂ) • (1 : Matrix (Fin (2 * 2)) (Fin (2 * 2)) ℂ))).PosSemidef := by
  have h : ((1 / 2 : ℂ) • (1 : Matrix (Fin (2 * 2)) (Fin (2 * 2)) ℂ)).PosSemidef :=
    PosSemidef.one.smul (by norm_num [Complex.le_def])
  refine ⟨_, rfl, h, ?_, ?_⟩
  · ext i j
    fin_cases i <;> fin_cases j <;> simp [traceOutput, finProdFinEquiv]
  · have : transposeInput ((1 / 2 : ℂ) • (1 : Matrix (Fin (2 * 2)) (Fin (2 * 2)) ℂ)) = (1 / 2 : ℂ) • 1 := by
      ext i j
      fin_cases i <;> fin_cases j <;> simp [transposeInput, finProdFinEquiv, Fin.divNat, Fin.modNat]
    rw [this]
    exact h

end PyQ
