import Verif.Props.Sampler
import Verif.Props.SearchBest
import Mathlib.Analysis.InnerProductSpace.PiL2

/-!
# C93: the Lipschitz sampler discards no better draw of the fidelity, but it does of the coherent information
-/

namespace PyQ

open Matrix
open scoped ComplexOrder

/-- C93.  If the objective changes by no more than the sum of the absolute differences of the entries of the density
matrices, the best of the evaluations that `initial_guesses_lipschitz` returns is the best of all the states it has
drawn, the discarded ones included: whatever the random numbers and the parameterisation. -/
theorem C93_sampler_partial {f : Objective} {P : Scheme} {nsize rank N T : ℕ} {vecs : List (List ℝ)} {evals : List ℝ}
    {success : Bool} (h : initialGuesses f P nsize rank N T = .ok (vecs, evals, success))
    (hlip : ∀ x x' ρ ρ' v v', P.rho x nsize rank = .ok ρ → P.rho x' nsize rank = .ok ρ' → f x = .ok v →
      f x' = .ok v' → |v - v'| ≤ sumAbsDiff ρ ρ') :
    ∃ stop, stop ≤ T + 1 ∧ (vecs.length < N → stop = T + 1) ∧
      (∀ x ∈ vecs, ∃ t < stop, P.random t nsize rank = .ok x) ∧
      ∃ m ∈ evals, ∀ t < stop, ∀ x v, P.random t nsize rank = .ok x → f x = .ok v → -v ≤ m := by
  obtain ⟨L, stop, hrun, rfl, rfl, -, -, -, h1, h2⟩ := C40_sampler h
  refine ⟨stop, h1, h2, ?_, ?_⟩
  · intro x hx
    obtain ⟨q, hq, rfl⟩ := List.mem_map.mp hx
    exact ⟨q.draw, (hrun.drawn q hq).1, (hrun.drawn q hq).2.1⟩
  · obtain ⟨q0, hq0, -⟩ := hrun.first
    refine ⟨_, listMax_mem (L.map (·.value)) (List.ne_nil_of_mem (List.mem_map_of_mem hq0)), ?_⟩
    intro t ht x v hx hv
    by_cases hex : ∃ q ∈ L, q.draw = t
    · obtain ⟨q, hq, rfl⟩ := hex
      have e1 := (hrun.drawn q hq).2.1
      rw [hx] at e1
      injection e1 with e1
      have e2 := hrun.value q hq
      rw [← e1, hv] at e2
      injection e2 with e2
      rw [e2, neg_neg]
      exact listMax_ge _ _ (List.mem_map_of_mem hq)
    · push Not at hex
      obtain ⟨x', ρ, e1, e2, a, ha, b, hb, -, -, hlt⟩ := hrun.rejected t ht hex
      rw [hx] at e1
      injection e1 with e1
      subst e1
      have := hlip x b.vec ρ b.rho v (-b.value) e2 (hrun.drawn b hb).2.2 hv (hrun.value b hb)
      have h3 := (abs_le.mp this).1
      have h4 := listMax_ge (L.map (·.value)) a.value (List.mem_map_of_mem ha)
      linarith

/-! ### The fidelity of pure states is Lipschitz -/

theorem dot_vecMulVec {N : ℕ} (M : Matrix (Fin N) (Fin N) ℂ) (ψ : Fin N → ℂ) :
    star ψ ⬝ᵥ M *ᵥ ψ = trace (M * vecMulVec ψ (star ψ)) := by
  rw [mul_vecMulVec, trace_vecMulVec, dotProduct_comm]

/-- The fidelity of a pure state with its image: the norm of the vector of the numbers `tr (K ρ)`. -/
theorem fidelity_kraus {N l : ℕ} (K : Fin l → Matrix (Fin N) (Fin N) ℂ) (ψ : Fin N → ℂ) :
    (star ψ ⬝ᵥ Spec.applyKraus K (vecMulVec ψ (star ψ)) *ᵥ ψ).re = ∑ k, ‖trace (K k * vecMulVec ψ (star ψ))‖ ^ 2 := by
  unfold Spec.applyKraus
  rw [sum_mulVec, dotProduct_sum, Complex.re_sum]
  refine Finset.sum_congr rfl fun k _ => ?_
  have : star ψ ⬝ᵥ (K k * vecMulVec ψ (star ψ) * (K k)ᴴ) *ᵥ ψ =
      (star ψ ⬝ᵥ K k *ᵥ ψ) * star (star ψ ⬝ᵥ K k *ᵥ ψ) := by
    rw [mul_vecMulVec, vecMulVec_mul, vecMulVec_mulVec, dotProduct_smul, ← star_mulVec]
    rw [op_smul_eq_smul, smul_eq_mul, mul_comm]
    congr 1
    rw [star_dotProduct]
  rw [this, ← dot_vecMulVec]
  rw [show star (star ψ ⬝ᵥ K k *ᵥ ψ) = (starRingEnd ℂ) (star ψ ⬝ᵥ K k *ᵥ ψ) from rfl, Complex.mul_conj,
    Complex.ofReal_re, Complex.normSq_eq_norm_sq]

/-- Every entry of all the operators of a channel together has norm at most one. -/
theorem kraus_entry_le {N l : ℕ} {K : Fin l → Matrix (Fin N) (Fin N) ℂ} (h : Spec.TracePreserving K) (i j : Fin N) :
    ∑ k, ‖K k j i‖ ^ 2 ≤ 1 := by
  have h1 : (∑ k, (K k)ᴴ * K k) i i = 1 := by
    rw [h, Matrix.one_apply_eq]
  rw [Matrix.sum_apply] at h1
  have h2 : ∑ k, ∑ x, ‖K k x i‖ ^ 2 = (1 : ℝ) := by
    have : ((∑ k, ∑ x, ‖K k x i‖ ^ 2 : ℝ) : ℂ) = 1 := by
      rw [← h1]
      push_cast
      refine Finset.sum_congr rfl fun k _ => ?_
      rw [Matrix.mul_apply]
      refine Finset.sum_congr rfl fun x _ => ?_
      rw [conjTranspose_apply, mul_comm, ← Complex.mul_conj']
      rfl
    exact_mod_cast this
  rw [← h2]
  exact Finset.sum_le_sum fun k _ => Finset.single_le_sum (f := fun x => ‖K k x i‖ ^ 2) (fun x _ => by positivity)
    (Finset.mem_univ j)

/-- The vector of the numbers `tr (K ρ)` is Lipschitz in `ρ`. -/
theorem traces_lipschitz {N l : ℕ} {K : Fin l → Matrix (Fin N) (Fin N) ℂ} (h : Spec.TracePreserving K)
    (ρ σ : Matrix (Fin N) (Fin N) ℂ) :
    |Real.sqrt (∑ k, ‖trace (K k * ρ)‖ ^ 2) - Real.sqrt (∑ k, ‖trace (K k * σ)‖ ^ 2)| ≤ ∑ i, ∑ j, ‖ρ i j - σ i j‖ := by
  let T : Matrix (Fin N) (Fin N) ℂ → EuclideanSpace ℂ (Fin l) := fun ρ => WithLp.toLp 2 fun k => trace (K k * ρ)
  have hT : ∀ ρ, ‖T ρ‖ = Real.sqrt (∑ k, ‖trace (K k * ρ)‖ ^ 2) := fun ρ => by rw [EuclideanSpace.norm_eq]
  have hsub : T ρ - T σ = ∑ i, ∑ j, (ρ i j - σ i j) • (WithLp.toLp 2 fun k => K k j i : EuclideanSpace ℂ (Fin l)) := by
    ext k
    simp only [T, PiLp.sub_apply, WithLp.ofLp_sum, WithLp.ofLp_smul, Finset.sum_apply, Pi.smul_apply, smul_eq_mul]
    rw [← trace_sub, ← Matrix.mul_sub]
    simp only [trace, Matrix.diag_apply, Matrix.mul_apply, Matrix.sub_apply]
    rw [Finset.sum_comm]
    exact Finset.sum_congr rfl fun i _ => Finset.sum_congr rfl fun j _ => mul_comm _ _
  rw [← hT, ← hT]
  refine (abs_norm_sub_norm_le _ _).trans ?_
  rw [hsub]
  refine (norm_sum_le _ _).trans (Finset.sum_le_sum fun i _ => (norm_sum_le _ _).trans
    (Finset.sum_le_sum fun j _ => ?_))
  rw [norm_smul]
  refine mul_le_of_le_one_right (norm_nonneg _) ?_
  rw [EuclideanSpace.norm_eq, ← Real.sqrt_one]
  exact Real.sqrt_le_sqrt (kraus_entry_le h i j)

theorem sumAbsDiff_mat {A B : Arr ℂ} {N : ℕ} (h1 : A.rows = N) (h2 : A.cols = N) :
    sumAbsDiff A B = ∑ i, ∑ j, ‖A.mat N N i j - B.mat N N i j‖ := by
  unfold sumAbsDiff
  rw [h1, h2, Finset.sum_range]
  refine Finset.sum_congr rfl fun i _ => ?_
  rw [Finset.sum_range]
  rfl

variable {g : Rng} {name : String} {spk : Bool} {ops : Arr3 ℂ} {a b d e : ℕ} {orth : List ℕ} {o : KrausObj}
  {sqrtm : Sqrtm} {n : ℕ} {calls : List QChan.Call}

/-- C93.  The fidelity of pure states before and after `n` uses of a channel changes by at most the sum of the
absolute differences of the entries of the states: for every trace preserving channel, history and number of uses. -/
theorem C93_fidelity_lipschitz (hsqrt : sqrtm.Correct) (h : QChan.init spk ops a b d e orth = .ok o)
    (htp : Spec.TracePreserving (ops.ops ops.len (e ^ b) (d ^ a)))
    (hsafe : Spec.SafeUses spk (calls.map QChan.Call.uses ++ [n])) (N : ℕ) (hin : d ^ a = N) (hout : e ^ b = N)
    (rho sigma : Arr ℂ) (hr : rho.rows = N ^ n) (hc : rho.cols = N ^ n)
    (hd : Spec.DensityOfRank (rho.mat (N ^ n) (N ^ n)) 1) (hr' : sigma.rows = N ^ n) (hc' : sigma.cols = N ^ n)
    (hd' : Spec.DensityOfRank (sigma.mat (N ^ n) (N ^ n)) 1) :
    ∃ F G, (QChan.fidelityTwoStates sqrtm (QChan.history o calls) rho n).1 = .ok F ∧
      (QChan.fidelityTwoStates sqrtm (QChan.history o calls) sigma n).1 = .ok G ∧
      |F - G| ≤ ∑ i, ∑ j, ‖rho.mat (N ^ n) (N ^ n) i j - sigma.mat (N ^ n) (N ^ n) i j‖ := by
  obtain ⟨ψ, hψ, hρ⟩ := exists_pure hd
  obtain ⟨φ, hφ, hσ⟩ := exists_pure hd'
  refine ⟨_, _, C50_pure_state hsqrt h calls n hsafe N hin hout rho hr hc ψ hψ hρ,
    C50_pure_state hsqrt h calls n hsafe N hin hout sigma hr' hc' φ hφ hσ, ?_⟩
  rw [hin, hout] at htp
  rw [fidelity_kraus, fidelity_kraus, hρ, hσ]
  exact traces_lipschitz (Spec.tensorPow_tp _ n htp) _ _

/-- C93.  For the objective of `optimize_fidelity` the sampler loses nothing: the best of the evaluations it returns
is the best of all pure states it has drawn, for every trace preserving channel with equal input and output
dimension, history, number of uses, both named parameterisations and all random numbers. -/
theorem C93_fidelity_sampler (hsqrt : sqrtm.Correct) (eig : Eigvalsh) (h : QChan.init spk ops a b d e orth = .ok o)
    (htp : Spec.TracePreserving (ops.ops ops.len (e ^ b) (d ^ a)))
    (hsafe : Spec.SafeUses spk (calls.map QChan.Call.uses ++ [n])) (hsq : e ^ b = d ^ a)
    {P : Scheme} (hP : getScheme g (.str name) = .ok P) {f : Objective}
    (hf : chooseObjective (QChan.view eig sqrtm (QChan.history o calls) n) P ((d ^ a) ^ n) 1 "fidelity" = .ok f)
    {N T : ℕ} {vecs : List (List ℝ)} {evals : List ℝ} {success : Bool}
    (hrun : initialGuesses f P ((d ^ a) ^ n) 1 N T = .ok (vecs, evals, success)) :
    ∃ stop, stop ≤ T + 1 ∧ (vecs.length < N → stop = T + 1) ∧
      (∀ x ∈ vecs, ∃ t < stop, P.random t ((d ^ a) ^ n) 1 = .ok x) ∧
      ∃ m ∈ evals, ∀ t < stop, ∀ x, P.random t ((d ^ a) ^ n) 1 = .ok x → ∀ ρ F,
        P.rho x ((d ^ a) ^ n) 1 = .ok ρ →
        (QChan.fidelityTwoStates sqrtm (QChan.history o calls) ρ n).1 = .ok F → -m ≤ F := by
  rw [chooseObjective, if_neg (by decide), if_pos rfl] at hf
  injection hf with hf
  have hdens : ∀ x ρ, P.rho x ((d ^ a) ^ n) 1 = .ok ρ → ρ.rows = (d ^ a) ^ n ∧ ρ.cols = (d ^ a) ^ n ∧
      Spec.DensityOfRank (ρ.mat ((d ^ a) ^ n) ((d ^ a) ^ n)) 1 := by
    intro x ρ hx
    simp only [getScheme] at hP
    split_ifs at hP
    · injection hP with hP
      subst hP
      exact over_density hx
    · injection hP with hP
      subst hP
      exact cholesky_density hx
  have hval : ∀ x ρ v, P.rho x ((d ^ a) ^ n) 1 = .ok ρ → f x = .ok v →
      (QChan.fidelityTwoStates sqrtm (QChan.history o calls) ρ n).1 = .ok v := by
    intro x ρ v hx hv
    rw [← hf] at hv
    simp only [hx, bind, Except.bind] at hv
    exact hv
  obtain ⟨stop, h1, h2, h3, m, hm, h4⟩ := C93_sampler_partial hrun (by
    intro x x' ρ ρ' v v' hx hx' hv hv'
    obtain ⟨d1, d2, d3⟩ := hdens x ρ hx
    obtain ⟨d4, d5, d6⟩ := hdens x' ρ' hx'
    obtain ⟨F, G, hF, hG, hle⟩ := C93_fidelity_lipschitz hsqrt h htp hsafe (d ^ a) rfl hsq ρ ρ' d1 d2 d3 d4 d5 d6
    rw [hval x ρ v hx hv] at hF
    rw [hval x' ρ' v' hx' hv'] at hG
    injection hF with hF
    injection hG with hG
    rw [hF, hG, sumAbsDiff_mat d1 d2]
    exact hle)
  refine ⟨stop, h1, h2, h3, m, hm, fun t ht x hx ρ F hρ hF => ?_⟩
  have := h4 t ht x F hx (by
    rw [← hf]
    simp only [hρ, bind, Except.bind]
    exact hF)
  linarith

/-- The hypotheses of `C93_fidelity_sampler`, and with them those of `C93_fidelity_lipschitz` and
`C93_sampler_partial`, are met: for two uses of the dephasing channel and any number of samples and tries. -/
example (hsqrt : sqrtm.Correct) (eig : Eigvalsh) (N T : ℕ) : ∃ o P f r,
    QChan.init false dephOps 1 1 2 2 [] = .ok o ∧
    Spec.TracePreserving (dephOps.ops dephOps.len (2 ^ 1) (2 ^ 1)) ∧
    Spec.SafeUses false (([] : List QChan.Call).map QChan.Call.uses ++ [2]) ∧
    getScheme twoDraws (.str "overparam") = .ok P ∧
    chooseObjective (QChan.view eig sqrtm (QChan.history o []) 2) P ((2 ^ 1) ^ 2) 1 "fidelity" = .ok f ∧
    initialGuesses f P ((2 ^ 1) ^ 2) 1 N T = .ok r := by
  obtain ⟨o, ho⟩ := deph_ok false []
  have hsafe : Spec.SafeUses false (([] : List QChan.Call).map QChan.Call.uses ++ [2]) := ⟨by simp, by simp⟩
  have hr : ∀ t, twoDraws.overParam.random t 4 1 = .ok [1, 0, 0, 0, 0, 0, if t = 0 then 1 else 0, 0] := by
    intro t
    by_cases ht : t = 0 <;>
    simp [Rng.overParam, OverParam.randomVectors, OverParam.numbVariables, twoDraws, List.range_succ, ht]
  have hrho : ∀ t : ℕ, ∃ A, twoDraws.overParam.rho [1, 0, 0, 0, 0, 0, if t = 0 then 1 else 0, 0] 4 1 = .ok A := by
    intro t
    obtain ⟨A, h1, -⟩ := over_ok [1, 0, 0, 0, 0, 0, if t = 0 then 1 else 0, 0] 4 1 rfl (by
      intro h
      have := congrFun (congrFun h 0) 0
      simp [Spec.overFactor, Complex.ext_iff] at this)
    refine ⟨A, ?_⟩
    simp only [Rng.overParam]
    rw [OverParam.rhoFromVec_some, h1]
    rfl
  obtain ⟨r, hr⟩ := C40_total (f := fun vec => do
      let rho ← twoDraws.overParam.rho vec 4 1
      (QChan.view eig sqrtm o 2).fidelity rho) (P := twoDraws.overParam) (nsize := 4) (rank := 1) N T (by
    intro t
    obtain ⟨A, hA⟩ := hrho t
    obtain ⟨d1, d2, d3⟩ := over_density hA
    obtain ⟨F, G, hF, -⟩ := C93_fidelity_lipschitz hsqrt ho dephOps_tp hsafe 2 rfl rfl A A d1 d2 d3 d1 d2 d3
    refine ⟨_, A, F, hr t, hA, ?_⟩
    simp only [hA, bind, Except.bind]
    exact hF)
  exact ⟨o, twoDraws.overParam, _, r, ho, dephOps_tp, hsafe, rfl, rfl, hr⟩

/-! ### The coherent information is not Lipschitz -/

/-- The entropy of a diagonal matrix. -/
theorem entropy_diagonal {eig : Eigvalsh} (heig : eig.Correct) {cut : ℝ} {A : Arr ℂ} {n : ℕ} (h1 : A.rows = n)
    (h2 : A.cols = n) (w : Fin n → ℝ) (hA : A.mat n n = diagonal fun i => ((w i : ℝ) : ℂ)) :
    entropyOne eig cut A = -∑ i, entropyTerm cut (w i) := by
  have hh : (A.mat n n).IsHermitian := by
    rw [hA]
    exact isHermitian_diagonal_of_self_adjoint _ (funext fun i => Complex.conj_ofReal _)
  have hc := heig A n h1 h2 hh
  rw [hA, charpoly_diagonal] at hc
  have hr := congrArg Polynomial.roots hc
  rw [roots_prod_real, roots_prod_real] at hr
  have hs := congrArg (fun s => (s.map fun z : ℂ => entropyTerm cut z.re).sum) hr
  simp only [Multiset.map_map, Function.comp_def, Complex.ofReal_re] at hs
  rw [entropyOne_eq eig cut A n h1]
  exact congrArg Neg.neg hs.symm

/-- Random numbers for which the draws `0`, `1`, `2`, `3` of `OverParam` for a qubit are the diagonal matrices with the
entries `(1, 0)`, `(9/10, 1/10)`, `(4/5, 1/5)` and `(0, 1)`. -/
noncomputable def fourDraws : Rng where
  normal := fun t i => if i = 0 then ([1, 3, 2] : List ℝ).getD t 0 else if i = 6 ∧ t ≠ 0 then 1 else 0
  uniform := fun _ _ _ _ => 0

/-- The vector of a diagonal factor. -/
def diagVec (x y : ℝ) : List ℝ := [x, 0, 0, 0, 0, 0, y, 0]

theorem fourDraws_random (t : ℕ) : fourDraws.overParam.random t 2 2 =
    .ok (diagVec (([1, 3, 2] : List ℝ).getD t 0) (if t = 0 then 0 else 1)) := by
  by_cases ht : t = 0 <;>
  simp [Rng.overParam, OverParam.randomVectors, OverParam.numbVariables, fourDraws, List.range_succ, diagVec, ht]

theorem diagVec_rho (x y : ℝ) (hxy : x ^ 2 + y ^ 2 ≠ 0) : ∃ A, fourDraws.overParam.rho (diagVec x y) 2 2 = .ok A ∧
    A.rows = 2 ∧ A.cols = 2 ∧ A.mat 2 2 =
      diagonal fun i => (((![x ^ 2 / (x ^ 2 + y ^ 2), y ^ 2 / (x ^ 2 + y ^ 2)] : Fin 2 → ℝ) i : ℝ) : ℂ) := by
  have hA : Spec.overFactor (diagVec x y) 2 2 = !![(x : ℂ), 0; 0, (y : ℂ)] := by
    ext i j
    fin_cases i <;> fin_cases j <;> simp [Spec.overFactor, Complex.ext_iff, diagVec]
  obtain ⟨A, h1, h2, h3, h4⟩ := over_ok (diagVec x y) 2 2 rfl (by
    rw [hA]
    intro h
    have e1 := congrFun (congrFun h 0) 0
    have e2 := congrFun (congrFun h 1) 1
    simp at e1 e2
    exact hxy (by rw [e1, e2]; norm_num))
  refine ⟨A, ?_, h2, h3, ?_⟩
  · simp only [Rng.overParam]
    rw [OverParam.rhoFromVec_some, h1]
    rfl
  · have hmul : !![(x : ℂ), 0; 0, (y : ℂ)] * (!![(x : ℂ), 0; 0, (y : ℂ)])ᴴ = !![(x : ℂ) ^ 2, 0; 0, (y : ℂ) ^ 2] := by
      ext i j
      rw [Matrix.mul_apply, Fin.sum_univ_two, conjTranspose_apply, conjTranspose_apply]
      fin_cases i <;> fin_cases j <;> simp [pow_two]
    rw [h4, hA, hmul]
    ext i j
    fin_cases i <;> fin_cases j <;> simp [trace_fin_two, diagonal_apply] <;> ring

/-- The identity channel of a qubit transmits the entropy of a diagonal state. -/
theorem coherent_diag {eig : Eigvalsh} (heig : eig.Correct) {o : KrausObj}
    (ho : QChan.init true (idOps 1) 1 1 2 2 [] = .ok o) {A : Arr ℂ} (h1 : A.rows = 2) (h2 : A.cols = 2)
    (hd : Spec.IsDensity (A.mat 2 2)) (p q : ℝ) (hA : A.mat 2 2 = diagonal fun i => ((![p, q] i : ℝ) : ℂ)) :
    (QChan.coherentInformation eig o A 1 false).1 = .ok (-(entropyTerm entropyCut p + entropyTerm entropyCut q)) := by
  have := C49_isometry heig ho (Or.inl rfl) (idOps_tp 1) rfl [] 1 ⟨by simp, by simp⟩ A h1 h2 hd
  refine this.trans ?_
  rw [entropyList_one eig entropyCut A (h1.trans h2.symm), entropy_diagonal heig h1 h2 ![p, q] hA, Fin.sum_univ_two]
  rfl

theorem entropyTerm_big {x : ℝ} (h : 1 / 10 ≤ x) : entropyTerm entropyCut x = x * Real.logb 2 x := by
  unfold entropyTerm
  rw [if_pos]
  rw [abs_of_pos (by linarith)]
  unfold entropyCut
  refine lt_of_lt_of_le ?_ h
  norm_num

/-- The binary entropies `h(1/10)` and `h(1/5)` satisfy `2/5 < h(1/10) < h(1/5)`. -/
theorem binary_tenth_fifth :
    2 / 5 < -(entropyTerm entropyCut (9 / 10) + entropyTerm entropyCut (1 / 10)) ∧
    -(entropyTerm entropyCut (9 / 10) + entropyTerm entropyCut (1 / 10)) <
      -(entropyTerm entropyCut (4 / 5) + entropyTerm entropyCut (1 / 5)) := by
  rw [entropyTerm_big (by norm_num), entropyTerm_big le_rfl, entropyTerm_big (by norm_num),
    entropyTerm_big (by norm_num)]
  have l2 : Real.logb 2 2 = 1 := Real.logb_self_eq_one (by norm_num)
  have l10 : Real.logb 2 10 = 1 + Real.logb 2 5 := by
    rw [← l2, ← Real.logb_mul (by norm_num) (by norm_num)]
    norm_num
  have l4 : Real.logb 2 4 = 2 := by
    rw [show (4 : ℝ) = 2 ^ 2 by norm_num, Real.logb_pow, l2]
    norm_num
  have e1 : Real.logb 2 (9 / 10) = Real.logb 2 9 - Real.logb 2 10 := Real.logb_div (by norm_num) (by norm_num)
  have e2 : Real.logb 2 (1 / 10) = -Real.logb 2 10 := by rw [one_div, Real.logb_inv]
  have e3 : Real.logb 2 (4 / 5) = Real.logb 2 4 - Real.logb 2 5 := Real.logb_div (by norm_num) (by norm_num)
  have e4 : Real.logb 2 (1 / 5) = -Real.logb 2 5 := by rw [one_div, Real.logb_inv]
  have h1 : 4 + 9 * Real.logb 2 9 < 10 * Real.logb 2 10 := by
    have : Real.logb 2 (2 ^ 4 * 9 ^ 9) < Real.logb 2 (10 ^ 10) :=
      Real.logb_lt_logb (by norm_num) (by norm_num) (by norm_num)
    rw [Real.logb_mul (by norm_num) (by norm_num), Real.logb_pow, Real.logb_pow, Real.logb_pow, l2] at this
    push_cast at this
    linarith
  have h2 : 26 < 9 * Real.logb 2 9 := by
    have : Real.logb 2 (2 ^ 26) < Real.logb 2 (9 ^ 9) :=
      Real.logb_lt_logb (by norm_num) (by norm_num) (by norm_num)
    rw [Real.logb_pow, Real.logb_pow, l2] at this
    push_cast at this
    linarith
  rw [e1, e2, e3, e4, l4, l10]
  rw [l10] at h1
  constructor <;> linarith

theorem sumAbsDiff_diag {A B : Arr ℂ} (h1 : A.rows = 2) (h2 : A.cols = 2) {p q p' q' : ℝ}
    (hA : A.mat 2 2 = diagonal fun i => ((![p, q] i : ℝ) : ℂ))
    (hB : B.mat 2 2 = diagonal fun i => ((![p', q'] i : ℝ) : ℂ)) : sumAbsDiff A B = |p - p'| + |q - q'| := by
  rw [sumAbsDiff_mat h1 h2, hA, hB]
  simp only [Fin.sum_univ_two, diagonal_apply_eq, Matrix.cons_val_zero, Matrix.cons_val_one]
  rw [diagonal_apply_ne _ (by decide), diagonal_apply_ne _ (by decide), diagonal_apply_ne _ (by decide),
    diagonal_apply_ne _ (by decide), ← Complex.ofReal_sub, ← Complex.ofReal_sub, Complex.norm_real, Complex.norm_real]
  simp

/-- C93 fails for the coherent information: for the identity channel of a qubit the sampler, asked for three samples
with its default number of tries, succeeds, returns the draws `0`, `1` and `3`, and has discarded the draw `2`,
although its coherent information is larger than that of every sample returned. -/
theorem C93_coherent_refuted {eig : Eigvalsh} (heig : eig.Correct) (sqrtm : Sqrtm) :
    ∃ o f vecs evals, QChan.init true (idOps 1) 1 1 2 2 [] = .ok o ∧
      chooseObjective (QChan.view eig sqrtm o 1) fourDraws.overParam 2 2 "coherent" = .ok f ∧
      initialGuesses f fourDraws.overParam 2 2 3 1000 = .ok (vecs, evals, true) ∧
      (∃ x0 x1 x3, vecs = [x0, x1, x3] ∧ fourDraws.overParam.random 0 2 2 = .ok x0 ∧
        fourDraws.overParam.random 1 2 2 = .ok x1 ∧ fourDraws.overParam.random 3 2 2 = .ok x3) ∧
      ∃ x ρ v, fourDraws.overParam.random 2 2 2 = .ok x ∧ fourDraws.overParam.rho x 2 2 = .ok ρ ∧
        (QChan.coherentInformation eig o ρ 1 false).1 = .ok v ∧ ∀ q ∈ evals, q < v := by
  obtain ⟨o, ho⟩ := init_exact true (idOps 1) 1 1 2 2 [] (by decide) rfl rfl (idOps_tp 1)
  obtain ⟨A0, a1, a2, a3, a4⟩ := diagVec_rho 1 0 (by norm_num)
  obtain ⟨A1, b1, b2, b3, b4⟩ := diagVec_rho 3 1 (by norm_num)
  obtain ⟨A2, c1, c2, c3, c4⟩ := diagVec_rho 2 1 (by norm_num)
  obtain ⟨A3, d1, d2, d3, d4⟩ := diagVec_rho 0 1 (by norm_num)
  have dens : ∀ {x A}, fourDraws.overParam.rho x 2 2 = .ok A → Spec.IsDensity (A.mat 2 2) := by
    intro x A h
    have := (over_density h).2.2
    exact ⟨this.1, this.2.1⟩
  have lit : ∀ {p q p' q' : ℝ}, p = p' → q = q' → (diagonal fun i => ((![p, q] i : ℝ) : ℂ) : Matrix (Fin 2) (Fin 2) ℂ) =
      diagonal fun i => ((![p', q'] i : ℝ) : ℂ) := by
    rintro p q p' q' rfl rfl
    rfl
  replace a4 := a4.trans (lit (p' := 1) (q' := 0) (by norm_num) (by norm_num))
  replace b4 := b4.trans (lit (p' := 9 / 10) (q' := 1 / 10) (by norm_num) (by norm_num))
  replace c4 := c4.trans (lit (p' := 4 / 5) (q' := 1 / 5) (by norm_num) (by norm_num))
  replace d4 := d4.trans (lit (p' := 0) (q' := 1) (by norm_num) (by norm_num))
  have v0 := coherent_diag heig ho a2 a3 (dens a1) _ _ a4
  have v1 := coherent_diag heig ho b2 b3 (dens b1) _ _ b4
  have v2 := coherent_diag heig ho c2 c3 (dens c1) _ _ c4
  have v3 := coherent_diag heig ho d2 d3 (dens d1) _ _ d4
  have t0 : entropyTerm entropyCut 0 = 0 := entropyTerm_zero entropyCut_nonneg
  have t1 : entropyTerm entropyCut 1 = 0 := by rw [entropyTerm_big (by norm_num)]; simp
  obtain ⟨hb1, hb2⟩ := binary_tenth_fifth
  rw [t0, t1, add_zero, neg_zero] at v0
  rw [t0, t1, add_zero, neg_zero] at v3
  generalize -(entropyTerm entropyCut (9 / 10) + entropyTerm entropyCut (1 / 10)) = s1 at hb1 hb2 v1
  generalize -(entropyTerm entropyCut (4 / 5) + entropyTerm entropyCut (1 / 5)) = s2 at hb2 v2
  have hs1 : s1 ≤ 1 := by
    obtain ⟨w, hw, hb, -⟩ := C45_coherent_bounds heig ho (Or.inl rfl) (idOps_tp 1) [] 1 ⟨by simp, by simp⟩ A1
      b2 b3 (dens b1)
    change (QChan.coherentInformation eig o A1 1 false).1 = .ok w at hw
    rw [v1] at hw
    injection hw with hw
    rw [hw]
    simpa using hb
  have r0 := fourDraws_random 0
  have r1 := fourDraws_random 1
  have r2 := fourDraws_random 2
  have r3 := fourDraws_random 3
  simp only [List.getD_cons_zero, List.getD_cons_succ, List.getD_nil, if_true, OfNat.ofNat_ne_zero, one_ne_zero,
    if_false] at r0 r1 r2 r3
  let f : Objective := fun vec => do
    let rho ← fourDraws.overParam.rho vec 2 2
    let v ← (QChan.coherentInformation eig o rho 1 false).1
    return -v
  have hf : ∀ {x A v}, fourDraws.overParam.rho x 2 2 = .ok A → (QChan.coherentInformation eig o A 1 false).1 = .ok v →
      f x = .ok (-v) := by
    intro x A v h1 h2
    simp only [f, h1, h2, bind, Except.bind]
    rfl
  have hd10 := sumAbsDiff_diag b2 b3 b4 a4
  have hd20 := sumAbsDiff_diag c2 c3 c4 a4
  have hd30 := sumAbsDiff_diag d2 d3 d4 a4
  have hd31 := sumAbsDiff_diag d2 d3 d4 b4
  have m1 : listMax [0, s1] = s1 := by
    simp only [listMax, List.foldl_cons, List.foldl_nil]
    exact max_eq_right (by linarith)
  have st1 : lipStep f fourDraws.overParam 2 2 1 ⟨[(diagVec 1 0, A0, 0)], 0⟩ =
      .ok ⟨[(diagVec 1 0, A0, 0), (diagVec 3 1, A1, s1)], s1⟩ := by
    unfold lipStep
    rw [r1]
    simp only [bind, Except.bind]
    rw [b1]
    simp only
    rw [if_pos, hf b1 v1]
    · simp only [List.cons_append, List.nil_append, List.map_cons, List.map_nil, neg_neg, m1]
      rfl
    · intro b hb
      simp only [lipBounds, List.map_cons, List.map_nil, List.mem_singleton] at hb
      rw [hb, hd10]
      positivity
  have st2 : lipStep f fourDraws.overParam 2 2 2 ⟨[(diagVec 1 0, A0, 0), (diagVec 3 1, A1, s1)], s1⟩ =
      .ok ⟨[(diagVec 1 0, A0, 0), (diagVec 3 1, A1, s1)], s1⟩ := by
    unfold lipStep
    rw [r2]
    simp only [bind, Except.bind]
    rw [c1]
    simp only
    rw [if_neg]
    · rfl
    · intro hall
      have := hall (0 + sumAbsDiff A2 A0) (by simp [lipBounds])
      rw [hd20] at this
      norm_num [abs_of_pos, abs_of_neg] at this
      linarith
  have st3 : lipStep f fourDraws.overParam 2 2 3 ⟨[(diagVec 1 0, A0, 0), (diagVec 3 1, A1, s1)], s1⟩ =
      .ok ⟨[(diagVec 1 0, A0, 0), (diagVec 3 1, A1, s1), (diagVec 0 1, A3, 0)], listMax [0, s1, 0]⟩ := by
    unfold lipStep
    rw [r3]
    simp only [bind, Except.bind]
    rw [d1]
    simp only
    rw [if_pos, hf d1 v3]
    · simp only [List.cons_append, List.nil_append, List.map_cons, List.map_nil, neg_zero]
      rfl
    · intro b hb
      simp only [lipBounds, List.map_cons, List.map_nil, List.mem_cons, List.not_mem_nil, or_false] at hb
      rcases hb with hb | hb
      · rw [hb, hd30]
        norm_num
        linarith
      · rw [hb, hd31]
        have : (0 : ℝ) ≤ |0 - 9 / 10| + |1 - 1 / 10| := by positivity
        linarith
  refine ⟨o, f, [diagVec 1 0, diagVec 3 1, diagVec 0 1], [0, s1, 0], ho, rfl, ?_, ⟨_, _, _, rfl, r0, r1, r3⟩,
    diagVec 2 1, A2, s2, r2, c1, v2, ?_⟩
  · unfold initialGuesses
    rw [r0]
    simp only [bind, Except.bind]
    rw [a1]
    simp only
    rw [hf a1 v0]
    simp only [neg_zero]
    have hl : lipLoop f fourDraws.overParam 2 2 3 1000 1 ⟨[(diagVec 1 0, A0, 0)], 0⟩ =
        .ok ⟨[(diagVec 1 0, A0, 0), (diagVec 3 1, A1, s1), (diagVec 0 1, A3, 0)], listMax [0, s1, 0]⟩ := by
      rw [show 1000 = 997 + 1 + 1 + 1 from rfl, lipLoop, if_pos (by simp)]
      simp only [bind, Except.bind, st1]
      rw [lipLoop, if_pos (by simp)]
      simp only [bind, Except.bind, st2]
      rw [lipLoop, if_pos (by simp)]
      simp only [bind, Except.bind, st3]
      rw [lipLoop.eq_def]
      simp
    rw [hl]
    simp [pure, Except.pure]
  · intro q hq
    simp only [List.mem_cons, List.not_mem_nil, or_false] at hq
    rcases hq with rfl | rfl | rfl <;> linarith

end PyQ
