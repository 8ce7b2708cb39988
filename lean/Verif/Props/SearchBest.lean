import Verif.Props.Search
import Verif.Props.EntropyBounds
import Verif.Props.OptimizeChannel
import Verif.Props.OptimizeBest
import Verif.Props.ChoiInfo

/-!
# C92: what the optimisers report if scipy finds the minimum
-/

namespace PyQ

open Matrix
open scoped ComplexOrder

/-- A run of differential evolution that ends at a global minimum over the bounds. -/
def Scipy.FindsMinimum (sp : Scipy) : Prop :=
  ∀ f b i p m r, sp.diffev f b i p m = .ok r → ∀ x, Spec.Within x b → ∀ v, f x = .ok v → r.fun_ ≤ v

variable {g : Rng} {sp : Scipy} {c : ChanView} {rank maxiter : ℕ} {objective name : String}
  {lipschitz usePool : PyNum} {samples : SamplesArg} {out : OptOutput}

/-- A named parameterisation reaches every state of the rank within its bounds. -/
theorem scheme_reach {P : Scheme} (hP : getScheme g (.str name) = .ok P) {N : ℕ} {x : List ℝ} {ρ : Arr ℂ}
    (hx : P.rho x N rank = .ok ρ) {bounds : List (ℝ × ℝ)} (hb : P.bounds N rank = .ok bounds) (rho : Arr ℂ)
    (h1 : rho.rows = N) (h2 : rho.cols = N) (hd : Spec.DensityOfRank (rho.mat N N) rank) :
    ∃ v ρ', Spec.Within v bounds ∧ P.rho v N rank = .ok ρ' ∧ Arr.Same ρ' rho := by
  simp only [getScheme] at hP
  split_ifs at hP
  · injection hP with hP
    subst hP
    injection hb with hb
    subst hb
    change OverParam.rhoFromVec x N (some rank) = .ok ρ at hx
    rw [OverParam.rhoFromVec_some] at hx
    obtain ⟨_, ha, -⟩ := bind_ok_iff.mp hx
    exact (C92_over N rank (pyAssert_ok ha) rho h1 h2).mpr hd
  · injection hP with hP
    subst hP
    injection hb with hb
    subst hb
    change CholeskyParam.rhoFromVec x N (some rank) = .ok ρ at hx
    unfold CholeskyParam.rhoFromVec at hx
    obtain ⟨_, ha, -⟩ := bind_ok_iff.mp hx
    exact (C92_cholesky N rank (pyAssert_ok ha) rho h1 h2).mpr hd

theorem diffev_ok {f : Objective} {bounds : List (ℝ × ℝ)} {lip : ℕ} {u : ℤ} {all : List (List ℝ)}
    {r : OptVal × Bool × Option (List ℝ)} (h : runOptimizer sp f bounds "diffev" lip u maxiter all = .ok r) :
    ∃ i p q, sp.diffev f bounds i p maxiter = .ok q ∧ r = (.num q.fun_, q.success, some q.x) := by
  unfold runOptimizer at h
  rw [if_pos rfl] at h
  obtain ⟨q, hq, h⟩ := bind_ok_iff.mp h
  injection h with h
  exact ⟨_, _, q, hq, h.symm⟩

/-- The coherent information at every state of the rank is at most the value reported. -/
theorem procedure_coherent_best (hmin : sp.FindsMinimum)
    (h : optimizeProcedure g sp c rank "diffev" (.str name) "coherent" lipschitz usePool maxiter samples = .ok out) :
    ∃ v, out.val = .num v ∧ ∀ rho : Arr ℂ, rho.rows = c.inputDim → rho.cols = c.inputDim →
      Spec.DensityOfRank (rho.mat c.inputDim c.inputDim) rank →
      ∃ ρ', Arr.Same ρ' rho ∧ ∀ w, c.coherent ρ' = .ok w → w ≤ v := by
  obtain ⟨P, f, bounds, all, r, val, x, hP, hf, -, hb, -, hr, hv, hx, hrho, ho, -⟩ := optimizeProcedure_ok h
  obtain ⟨i, p, q, hq, rfl⟩ := diffev_ok hr
  rw [finalVal, if_pos rfl] at hv
  injection hv with hv
  rw [chooseObjective, if_pos rfl] at hf
  injection hf with hf
  refine ⟨-q.fun_, by rw [ho, ← hv], fun rho h1 h2 hd => ?_⟩
  obtain ⟨v, ρ', hw, hv', hs⟩ := scheme_reach hP hrho hb rho h1 h2 hd
  refine ⟨ρ', hs, fun w hcw => ?_⟩
  have hfv : f v = .ok (-w) := by
    rw [← hf]
    simp only [hv', hcw, bind, Except.bind]
    rfl
  have := hmin f bounds i p maxiter q hq v hw (-w) hfv
  linarith

/-- The fidelity at every pure state is at least the value reported. -/
theorem procedure_fidelity_worst (hmin : sp.FindsMinimum)
    (h : optimizeProcedure g sp c 1 "diffev" (.str name) "fidelity" lipschitz usePool maxiter samples = .ok out) :
    ∃ v, out.val = .num v ∧ ∀ rho : Arr ℂ, rho.rows = c.inputDim → rho.cols = c.inputDim →
      Spec.DensityOfRank (rho.mat c.inputDim c.inputDim) 1 →
      ∃ ρ', Arr.Same ρ' rho ∧ ∀ w, c.fidelity ρ' = .ok w → v ≤ w := by
  obtain ⟨P, f, bounds, all, r, val, x, hP, hf, -, hb, -, hr, hv, hx, hrho, ho, -⟩ := optimizeProcedure_ok h
  obtain ⟨i, p, q, hq, rfl⟩ := diffev_ok hr
  rw [finalVal, if_neg (by decide)] at hv
  injection hv with hv
  rw [chooseObjective, if_neg (by decide), if_pos rfl] at hf
  injection hf with hf
  refine ⟨q.fun_, by rw [ho, ← hv], fun rho h1 h2 hd => ?_⟩
  obtain ⟨v, ρ', hw, hv', hs⟩ := scheme_reach hP hrho hb rho h1 h2 hd
  refine ⟨ρ', hs, fun w hcw => hmin f bounds i p maxiter q hq v hw w ?_⟩
  rw [← hf]
  simp only [hv', hcw, bind, Except.bind]

variable {spk : Bool} {ops : Arr3 ℂ} {a b d e : ℕ} {orth : List ℕ} {o o' : KrausObj} {eig : Eigvalsh}
  {sqrtm : Sqrtm} {n : ℕ} {reg : Bool} {calls : List QChan.Call}

/-- The coherent information depends on the entries of the state only. -/
theorem coherent_same_state (heig : eig.Correct) (h : QChan.init spk ops a b d e orth = .ok o)
    (ho : spk = true ∨ orth = []) (calls : List QChan.Call) (n : ℕ)
    (hsafe : Spec.SafeUses spk (calls.map QChan.Call.uses ++ [n])) (rho rho' : Arr ℂ) (hs : Arr.Same rho' rho)
    (hr : rho.rows = (d ^ a) ^ n) (hc : rho.cols = (d ^ a) ^ n)
    (hrho : (rho.mat ((d ^ a) ^ n) ((d ^ a) ^ n)).PosSemidef) (reg : Bool) :
    (QChan.coherentInformation eig (QChan.history o calls) rho' n reg).1 =
      (QChan.coherentInformation eig (QChan.history o calls) rho n reg).1 := by
  rw [Arr.same_iff_mat] at hs
  obtain ⟨s1, s2, s3⟩ := hs
  rw [s1, s2, hr, hc] at s3
  obtain ⟨out, W, -, x2, x3, x4, w2, w3, w4, hv⟩ := C45_coherent_value (eig := eig) h ho calls n hsafe rho hr hc reg
  obtain ⟨out', W', -, y2, y3, y4, z2, z3, z4, hv'⟩ :=
    C45_coherent_value (eig := eig) h ho calls n hsafe rho' (s1.trans hr) (s2.trans hc) reg
  rw [s3] at y4 z4
  have e1 : entropyOne eig entropyCut out = entropyOne eig entropyCut out' :=
    entropy_same heig entropyCut_nonneg x2 x3 y2 y3 (by
      rw [x4]; exact (Spec.applyKraus_posSemidef _ hrho).isHermitian) (by rw [x4, y4])
  have e2 : entropyOne eig entropyCut W = entropyOne eig entropyCut W' :=
    entropy_same heig entropyCut_nonneg w2 w3 z2 z3 (by
      rw [w4]; exact (Spec.exchange_posSemidef _ hrho).isHermitian) (by rw [w4, z4])
  rw [hv, hv', e1, e2]

/-- C92.  If differential evolution finds the minimum over the bounds it is given, the value reported by
`optimize_coherent(n, rank, "diffev", ...)` is the largest coherent information of all density matrices of rank at most
`rank`: for every channel, history and number of uses, and both named parameterisations. -/
theorem C92_coherent_best (hsp : sp.Correct) (hmin : sp.FindsMinimum) (heig : eig.Correct)
    (h : QChan.init spk ops a b d e orth = .ok o) (ho : spk = true ∨ orth = [])
    (hsafe : Spec.SafeUses spk (calls.map QChan.Call.uses ++ [n]))
    (hopt : QChan.optimizeCoherent g sp eig sqrtm (QChan.history o calls) n rank "diffev" (.str name) lipschitz
      usePool maxiter samples reg = (.ok out, o')) :
    ∃ v, out.val = .num v ∧
      IsGreatest {w | ∃ rho : Arr ℂ, rho.rows = (d ^ a) ^ n ∧ rho.cols = (d ^ a) ^ n ∧
        Spec.DensityOfRank (rho.mat ((d ^ a) ^ n) ((d ^ a) ^ n)) rank ∧
        (QChan.coherentInformation eig o' rho n reg).1 = .ok w} v := by
  obtain ⟨v, hv, hval⟩ := C39_optimize_coherent hsp hopt (Or.inl rfl)
  obtain ⟨d1, d2, d3⟩ := C51_coherent_state h hopt
  refine ⟨v, hv, ⟨out.rho, d1, d2, d3, by rw [hval]⟩, ?_⟩
  rintro w ⟨rho, hr, hc, hd, hw⟩
  unfold QChan.optimizeCoherent at hopt
  rcases hs : QChan.sync (QChan.history o calls) n with ⟨x | u, o1⟩
  · rw [hs] at hopt
    have := congrArg Prod.fst hopt
    cases this
  rw [hs] at hopt
  simp only [Prod.mk.injEq] at hopt
  obtain ⟨hopt, rfl⟩ := hopt
  obtain ⟨r, hr', hret⟩ := bind_ok_iff.mp hopt
  obtain ⟨v', hv', hbest⟩ := procedure_coherent_best hmin hr'
  have hin : (QChan.view eig sqrtm o1 n).inputDim = (d ^ a) ^ n := sync_input h hs
  rw [hin] at hbest
  obtain ⟨ρ', hsame, hle⟩ := hbest rho hr hc hd
  obtain ⟨rr, rfl⟩ := sync_history hs
  have hsafe2 : Spec.SafeUses spk ((calls ++ [QChan.Call.channel rr n false]).map QChan.Call.uses ++ [n]) := by
    rw [List.map_append]; exact safe_twice hsafe
  obtain ⟨out1, W, -, -, -, -, -, -, -, hval1⟩ := C45_coherent_value (eig := eig) h ho _ n hsafe2 rho hr hc false
  obtain ⟨out2, W2, -, -, -, -, -, -, -, hval2⟩ := C45_coherent_value (eig := eig) h ho _ n hsafe2 rho hr hc reg
  have heq := coherent_same_state heig h ho _ n hsafe2 rho ρ' hsame hr hc hd.1 false
  have hle' := hle _ (heq.trans hval1)
  cases reg with
  | false =>
    rw [if_neg (by simp)] at hret
    injection hret with hret
    subst hret
    rw [hv] at hv'
    injection hv' with hv'
    rw [hw] at hval1
    injection hval1 with hval1
    rw [hval1, hv']
    exact hle'
  | true =>
    rw [if_pos rfl] at hret
    unfold divideVal at hret
    rw [hv'] at hret
    simp only at hret
    split_ifs at hret with hn
    injection hret with hret
    subst hret
    injection hv with hv
    have hreg := coherent_regularized (o := QChan.history o (calls ++ [QChan.Call.channel rr n false])) (n := n)
      (rho := rho) hval1
    rw [hreg] at hw
    injection hw with hw
    rw [← hw, ← hv]
    exact div_le_div_of_nonneg_right hle' (Nat.cast_nonneg n)

/-- A density matrix of rank at most one is the projector on a unit vector. -/
theorem exists_pure {N : ℕ} {ρ : Matrix (Fin N) (Fin N) ℂ} (h : Spec.DensityOfRank ρ 1) :
    ∃ ψ : Fin N → ℂ, star ψ ⬝ᵥ ψ = 1 ∧ ρ = vecMulVec ψ (star ψ) := by
  have hN : 1 ≤ N := by
    by_contra hc
    obtain rfl : N = 0 := by omega
    have := h.2.1
    simp [trace] at this
  obtain ⟨A, hA⟩ := exists_low_factor hN h.1 h.2.2
  have hρ : ρ = vecMulVec (fun i => A i 0) (star fun i => A i 0) := by
    rw [← hA]
    ext i j
    rw [mul_apply, Fin.sum_univ_one, conjTranspose_apply, vecMulVec_apply]
    rfl
  refine ⟨fun i => A i 0, ?_, hρ⟩
  have := h.2.1
  rw [hρ, trace_vecMulVec] at this
  rw [dotProduct_comm]
  exact this

theorem pure_rank {N : ℕ} {ψ : Fin N → ℂ} (hψ : star ψ ⬝ᵥ ψ = 1) : Spec.DensityOfRank (vecMulVec ψ (star ψ)) 1 :=
  ⟨posSemidef_vecMulVec_self_star ψ, by rw [trace_vecMulVec, dotProduct_comm, hψ], rank_vecMulVec_le _ _⟩

/-- C92.  If differential evolution finds the minimum over the bounds it is given, the value reported by
`optimize_fidelity(n, "diffev", ...)` is the worst fidelity `√⟨ψ, N(|ψ⟩⟨ψ|) ψ⟩` of all unit vectors `ψ`: for every
channel with equal input and output dimension, every history and number of uses, and both named parameterisations. -/
theorem C92_fidelity_worst (hsp : sp.Correct) (hmin : sp.FindsMinimum) (hsqrt : sqrtm.Correct)
    (h : QChan.init spk ops a b d e orth = .ok o)
    (hsafe : Spec.SafeUses spk (calls.map QChan.Call.uses ++ [n])) (N : ℕ) (hin : d ^ a = N) (hout : e ^ b = N)
    (hopt : QChan.optimizeFidelity g sp eig sqrtm (QChan.history o calls) n "diffev" (.str name) lipschitz
      usePool maxiter samples = (.ok out, o')) :
    ∃ v, out.val = .num v ∧
      IsLeast {w | ∃ ψ : Fin (N ^ n) → ℂ, star ψ ⬝ᵥ ψ = 1 ∧ w = Real.sqrt
        (star ψ ⬝ᵥ Spec.applyKraus (Spec.tensorPow (ops.ops ops.len N N) n) (vecMulVec ψ (star ψ)) *ᵥ ψ).re} v := by
  obtain ⟨v, hv, hval⟩ := C39_optimize_fidelity hsp hopt (Or.inl rfl)
  obtain ⟨d1, d2, d3⟩ := C51_fidelity_state h hopt
  unfold QChan.optimizeFidelity at hopt
  rcases hs : QChan.sync (QChan.history o calls) n with ⟨x | u, o1⟩
  · rw [hs] at hopt
    have := congrArg Prod.fst hopt
    cases this
  rw [hs] at hopt
  simp only [Prod.mk.injEq] at hopt
  obtain ⟨hopt, rfl⟩ := hopt
  obtain ⟨v', hv', hbest⟩ := procedure_fidelity_worst hmin hopt
  rw [hv] at hv'
  injection hv' with hv'
  subst hv'
  have hi : (QChan.view eig sqrtm o1 n).inputDim = (d ^ a) ^ n := sync_input h hs
  rw [hi] at hbest
  subst hin
  obtain ⟨rr, rfl⟩ := sync_history hs
  have hsafe2 : Spec.SafeUses spk ((calls ++ [QChan.Call.channel rr n false]).map QChan.Call.uses ++ [n]) := by
    rw [List.map_append]; exact safe_twice hsafe
  refine ⟨v, hv, ?_, ?_⟩
  · obtain ⟨ψ, hψ, hρ⟩ := exists_pure d3
    refine ⟨ψ, hψ, ?_⟩
    have := C50_pure_state hsqrt h _ n hsafe2 _ rfl hout out.rho d1 d2 ψ hψ hρ
    rw [hval] at this
    injection this
  · rintro w ⟨ψ, hψ, rfl⟩
    obtain ⟨ρ', hsame, hle⟩ := hbest (Arr.ofMat (vecMulVec ψ (star ψ))) rfl rfl (by
      rw [Arr.ofMat_mat]; exact pure_rank hψ)
    rw [Arr.same_iff_mat] at hsame
    obtain ⟨s1, s2, s3⟩ := hsame
    rw [s1, s2] at s3
    exact hle _ (C50_pure_state hsqrt h _ n hsafe2 _ rfl hout ρ' s1 s2 ψ hψ (s3.trans (Arr.ofMat_mat _)))

/-! ### The hypotheses are met -/

open Classical in
/-- An optimiser that returns a minimum over the bounds if there is one. -/
noncomputable def bestScipy : Scipy where
  slsqp := fun _ _ _ _ => .error .value
  diffev := fun f b _ _ _ =>
    if h : ∃ r : OptRes, f r.x = .ok r.fun_ ∧ ∀ y, Spec.Within y b → ∀ w, f y = .ok w → r.fun_ ≤ w then .ok h.choose
    else .error .value

theorem bestScipy_ok {f : Objective} {b : List (ℝ × ℝ)} {i : Option (List (List ℝ))} {p m : ℕ} {r : OptRes}
    (h : bestScipy.diffev f b i p m = .ok r) :
    f r.x = .ok r.fun_ ∧ ∀ y, Spec.Within y b → ∀ w, f y = .ok w → r.fun_ ≤ w := by
  simp only [bestScipy] at h
  split_ifs at h with hex
  injection h with h
  subst h
  exact hex.choose_spec

theorem bestScipy_correct : bestScipy.Correct :=
  ⟨fun _ _ _ _ _ h => by simp [bestScipy] at h, fun _ _ _ _ _ _ h => (bestScipy_ok h).1⟩

theorem bestScipy_finds : bestScipy.FindsMinimum := fun _ _ _ _ _ _ h => (bestScipy_ok h).2

theorem bestScipy_returns {f : Objective} {b : List (ℝ × ℝ)} {i : Option (List (List ℝ))} {p m : ℕ} {x : List ℝ} {v : ℝ}
    (hx : f x = .ok v) (hmin : ∀ y, Spec.Within y b → ∀ w, f y = .ok w → v ≤ w) :
    ∃ r, bestScipy.diffev f b i p m = .ok r := by
  have hex : ∃ r : OptRes, f r.x = .ok r.fun_ ∧ ∀ y, Spec.Within y b → ∀ w, f y = .ok w → r.fun_ ≤ w :=
    ⟨⟨v, x, true⟩, hx, hmin⟩
  exact ⟨_, dif_pos hex⟩

/-- A run of differential evolution without samples. -/
theorem diffev_run {P : Scheme} {f : Objective} {bounds : List (ℝ × ℝ)} {val : OptVal} {r : OptRes} {ρ : Arr ℂ}
    (hP : getScheme g (.str name) = .ok P) (hf : chooseObjective c P c.inputDim rank objective = .ok f)
    (hb : P.bounds c.inputDim rank = .ok bounds) (hr : sp.diffev f bounds none 50 maxiter = .ok r)
    (hv : finalVal objective (.num r.fun_) = .ok val) (hρ : P.rho r.x c.inputDim rank = .ok ρ) :
    optimizeProcedure g sp c rank "diffev" (.str name) objective (.int 0) (.int 0) maxiter ⟨true, []⟩ =
      .ok ⟨ρ, val, "diffev", false, r.success, objective⟩ := by
  have hch : checkOptions "diffev" (.int 0) (.int 0) ⟨true, []⟩ = .ok () := by
    simp [checkOptions, pyAssert, PyNum.isInt, PyNum.assertNonneg, PyNum.toInt, bind, Except.bind]
  have hga : gatherSamples f P c.inputDim rank 0 [] = .ok [] := rfl
  have hrun : runOptimizer sp f bounds "diffev" 0 0 maxiter [] = .ok (.num r.fun_, r.success, some r.x) := by
    unfold runOptimizer
    rw [if_pos rfl]
    simp only [List.length_nil, ne_eq, not_true_eq_false, or_self, if_false]
    rw [hr]
    rfl
  unfold optimizeProcedure
  rw [hP]
  simp only [bind, Except.bind]
  rw [hf]
  simp only
  rw [hch]
  simp only
  rw [hb]
  simp only [PyNum.toInt, Int.toNat_zero]
  rw [hga]
  simp only
  rw [hrun]
  simp only
  rw [hv]
  simp only
  rw [hρ]
  rfl

/-- With such an optimiser `optimize_coherent(1, 2, "diffev", "cholesky", lipschitz=0)` for the identity channel of a
qubit returns the capacity `1`. -/
theorem C92_coherent_qubit {eig : Eigvalsh} (heig : eig.Correct) (sqrtm : Sqrtm) (g : Rng) :
    ∃ o out, QChan.init true (idOps 1) 1 1 2 2 [] = .ok o ∧
      (QChan.optimizeCoherent g bestScipy eig sqrtm o 1 2 "diffev" (.str "cholesky") (.int 0) (.int 0) 50 ⟨true, []⟩
        false).1 = .ok out ∧ out.val = .num 1 := by
  obtain ⟨o, ho⟩ := init_exact true (idOps 1) 1 1 2 2 [] (by decide) rfl rfl (idOps_tp 1)
  obtain ⟨q1, -, -, q2, -, q3, -⟩ := qchanInit_ok ho
  have hcur : o.curN = 1 := q1.1
  have hsync : QChan.sync o 1 = (.ok (), o) := by rw [QChan.sync, if_neg (by simp [hcur])]
  have hdim : (QChan.view eig sqrtm o 1).inputDim = 2 := by
    simp only [QChan.view, QChan.inputDimension, hcur, q2, q3]
    norm_num
  obtain ⟨x, A, hxb, hxA, hsame⟩ := (C92_cholesky 2 2 ⟨by decide, le_rfl⟩ mixedState rfl rfl).mpr mixedState_rank
  rw [Arr.same_iff_mat] at hsame
  obtain ⟨a2, a3, a4⟩ := hsame
  rw [a2, a3] at a4
  have hone : ∀ ρ : Arr ℂ, ρ.rows = 2 → ρ.cols = 2 → ρ.mat 2 2 = mixedState.mat 2 2 →
      (QChan.coherentInformation eig o ρ 1 false).1 = .ok 1 := by
    intro ρ r1 r2 r3
    have := C49_isometry heig ho (Or.inl rfl) (idOps_tp 1) rfl [] 1 ⟨by simp, by simp⟩ ρ r1 r2 (by
      change Spec.IsDensity (ρ.mat 2 2)
      rw [r3]
      exact mixedState_density)
    exact this.trans (entropy_mixed heig r1 r2 r3)
  have hle : ∀ y ρ w, CholeskyParam.rhoFromVec y 2 (some 2) = .ok ρ →
      (QChan.coherentInformation eig o ρ 1 false).1 = .ok w → w ≤ 1 := by
    intro y ρ w hy hw
    obtain ⟨y1, y2, y3⟩ := cholesky_density hy
    obtain ⟨w', hw', hb, -⟩ := C45_coherent_bounds heig ho (Or.inl rfl) (idOps_tp 1) [] 1 ⟨by simp, by simp⟩ ρ
      y1 y2 ⟨y3.1, y3.2.1⟩
    change (QChan.coherentInformation eig o ρ 1 false).1 = .ok w' at hw'
    rw [hw] at hw'
    injection hw' with hw'
    rw [hw']
    simpa using hb
  let f : Objective := fun vec => do
    let rho ← CholeskyParam.rhoFromVec vec 2 (some 2)
    let v ← (QChan.coherentInformation eig o rho 1 false).1
    return -v
  have hfx : f x = .ok (-1) := by
    simp only [f, hxA, hone A a2 a3 a4, bind, Except.bind]
    rfl
  obtain ⟨r, hr⟩ := bestScipy_returns (i := none) (p := 50) (m := 50) hfx (b := CholeskyParam.bounds 2 2 (-1) 1) (by
    intro y _ w hw
    obtain ⟨ρ, hρ, hw⟩ := bind_ok_iff.mp hw
    obtain ⟨z, hz, hw⟩ := bind_ok_iff.mp hw
    injection hw with hw
    rw [← hw]
    linarith [hle y ρ z hρ hz])
  obtain ⟨r1, r2⟩ := bestScipy_ok hr
  have hval : r.fun_ = -1 := by
    refine le_antisymm (r2 x hxb _ hfx) ?_
    obtain ⟨ρ, hρ, hw⟩ := bind_ok_iff.mp r1
    obtain ⟨z, hz, hw⟩ := bind_ok_iff.mp hw
    injection hw with hw
    rw [← hw]
    linarith [hle _ ρ z hρ hz]
  obtain ⟨ρ, hρ, -⟩ := bind_ok_iff.mp r1
  refine ⟨o, ⟨ρ, .num 1, "diffev", false, r.success, "coherent"⟩, ho, ?_, rfl⟩
  unfold QChan.optimizeCoherent
  rw [hsync]
  simp only
  have hproc : optimizeProcedure g bestScipy (QChan.view eig sqrtm o 1) 2 "diffev" (.str "cholesky") "coherent" (.int 0)
      (.int 0) 50 ⟨true, []⟩ = .ok ⟨ρ, .num 1, "diffev", false, r.success, "coherent"⟩ := by
    refine diffev_run (P := g.choleskyParam) (f := f) (bounds := CholeskyParam.bounds 2 2 (-1) 1) rfl ?_ ?_ hr ?_ ?_
    · rw [hdim]; rfl
    · rw [hdim]; rfl
    · rw [hval, finalVal, if_pos rfl, negate, neg_neg]
    · rw [hdim]; exact hρ
  rw [hproc]
  rfl

/-- The overlap of a vector with its dephased state. -/
theorem deph_overlap (ψ : Fin 2 → ℂ) : (star ψ ⬝ᵥ Spec.applyKraus (dephOps.ops 2 2 2) (vecMulVec ψ (star ψ)) *ᵥ ψ).re =
    (‖ψ 0‖ ^ 2) ^ 2 + (‖ψ 1‖ ^ 2) ^ 2 := by
  have hK : Spec.applyKraus (dephOps.ops 2 2 2) (vecMulVec ψ (star ψ)) =
      diagonal fun i => ((‖ψ i‖ ^ 2 : ℝ) : ℂ) := by
    ext i j
    simp only [Spec.applyKraus, Matrix.sum_apply, Matrix.mul_apply, Fin.sum_univ_two, conjTranspose_apply,
      Arr3.ops, dephOps, vecMulVec_apply, Pi.star_apply, Complex.star_def]
    fin_cases i <;> fin_cases j <;> simp [Complex.mul_conj, Complex.normSq_eq_norm_sq]
  have h2 : ∀ z : ℂ, star z * (((‖z‖ ^ 2 : ℝ) : ℂ) * z) = (((‖z‖ ^ 2) ^ 2 : ℝ) : ℂ) := by
    intro z
    have : star z * (((‖z‖ ^ 2 : ℝ) : ℂ) * z) = ((‖z‖ ^ 2 : ℝ) : ℂ) * (z * star z) := by ring
    rw [this, Complex.star_def, Complex.mul_conj, Complex.normSq_eq_norm_sq, ← Complex.ofReal_mul, sq (‖z‖ ^ 2)]
  rw [hK]
  simp only [dotProduct, mulVec_diagonal, Fin.sum_univ_two, Pi.star_apply, h2]
  rw [Complex.add_re, Complex.ofReal_re, Complex.ofReal_re]

/-- With such an optimiser `optimize_fidelity(1, "diffev", "overparam", lipschitz=0)` for the dephasing channel of a
qubit returns `√(1/2)`, the fidelity at `|+⟩`. -/
theorem C92_fidelity_qubit {sqrtm : Sqrtm} (hsqrt : sqrtm.Correct) (eig : Eigvalsh) (g : Rng) :
    ∃ o out, QChan.init true dephOps 1 1 2 2 [] = .ok o ∧
      (QChan.optimizeFidelity g bestScipy eig sqrtm o 1 "diffev" (.str "overparam") (.int 0) (.int 0) 50 ⟨true, []⟩).1 =
        .ok out ∧ out.val = .num (Real.sqrt (1 / 2)) := by
  obtain ⟨o, ho⟩ := deph_ok true []
  obtain ⟨q1, -, -, q2, -, q3, -⟩ := qchanInit_ok ho
  have hcur : o.curN = 1 := q1.1
  have hsync : QChan.sync o 1 = (.ok (), o) := by rw [QChan.sync, if_neg (by simp [hcur])]
  have hdim : (QChan.view eig sqrtm o 1).inputDim = 2 := by
    simp only [QChan.view, QChan.inputDimension, hcur, q2, q3]
    norm_num
  have hval : ∀ (ρ : Arr ℂ) (ψ : Fin 2 → ℂ), ρ.rows = 2 → ρ.cols = 2 → star ψ ⬝ᵥ ψ = 1 →
      ρ.mat 2 2 = vecMulVec ψ (star ψ) →
      (QChan.fidelityTwoStates sqrtm o ρ 1).1 = .ok (Real.sqrt ((‖ψ 0‖ ^ 2) ^ 2 + (‖ψ 1‖ ^ 2) ^ 2)) := by
    intro ρ ψ r1 r2 hψ hρ
    have := C50_pure_state hsqrt ho [] 1 ⟨by simp, by simp⟩ 2 rfl rfl ρ r1 r2 ψ hψ hρ
    rw [tensorPow_one_eq] at this
    rw [← deph_overlap]
    exact this
  have hunit : ∀ ψ : Fin 2 → ℂ, star ψ ⬝ᵥ ψ = 1 → ‖ψ 0‖ ^ 2 + ‖ψ 1‖ ^ 2 = 1 := by
    intro ψ hψ
    have h1 : ∀ z : ℂ, star z * z = ((‖z‖ ^ 2 : ℝ) : ℂ) := by
      intro z
      rw [mul_comm, Complex.star_def, Complex.mul_conj, Complex.normSq_eq_norm_sq]
    simp only [dotProduct, Fin.sum_univ_two, Pi.star_apply, h1] at hψ
    exact_mod_cast hψ
  obtain ⟨x, A, hxb, hxA, hsame⟩ := (C92_over 2 1 (by decide) (Arr.ofMat (vecMulVec plusVec (star plusVec))) rfl
    rfl).mpr (by rw [Arr.ofMat_mat]; exact pure_rank plusVec_unit)
  rw [Arr.same_iff_mat] at hsame
  obtain ⟨a2, a3, a4⟩ := hsame
  rw [a2, a3] at a4
  let f : Objective := fun vec => do
    let rho ← OverParam.rhoFromVec vec 2 (some 1)
    (QChan.fidelityTwoStates sqrtm o rho 1).1
  have hf1 : ∀ y w, f y = .ok w → Real.sqrt (1 / 2) ≤ w := by
    intro y w hw
    obtain ⟨ρ, hρ, hw⟩ := bind_ok_iff.mp hw
    obtain ⟨y1, y2, y3⟩ := over_density hρ
    obtain ⟨ψ, hψ, hρψ⟩ := exists_pure y3
    rw [hval ρ ψ y1 y2 hψ hρψ] at hw
    injection hw with hw
    rw [← hw]
    refine Real.sqrt_le_sqrt ?_
    nlinarith [hunit ψ hψ, sq_nonneg (‖ψ 0‖ ^ 2 - ‖ψ 1‖ ^ 2)]
  have hfx : f x = .ok (Real.sqrt (1 / 2)) := by
    simp only [f, hxA, bind, Except.bind]
    rw [hval A plusVec a2 a3 plusVec_unit (a4.trans (Arr.ofMat_mat _))]
    have hp : ∀ i, ‖plusVec i‖ ^ 2 = 1 / 2 := by
      intro i
      rw [plusVec, Complex.norm_real, Real.norm_eq_abs, sq_abs, Real.sq_sqrt (by norm_num)]
    rw [hp, hp]
    norm_num
  obtain ⟨r, hr⟩ := bestScipy_returns (i := none) (p := 50) (m := 50) hfx (b := OverParam.bounds 2 1)
    fun y _ w hw => hf1 y w hw
  obtain ⟨r1, r2⟩ := bestScipy_ok hr
  have hrv : r.fun_ = Real.sqrt (1 / 2) := le_antisymm (r2 x hxb _ hfx) (hf1 _ _ r1)
  obtain ⟨ρ, hρ, -⟩ := bind_ok_iff.mp r1
  refine ⟨o, ⟨ρ, .num (Real.sqrt (1 / 2)), "diffev", false, r.success, "fidelity"⟩, ho, ?_, rfl⟩
  unfold QChan.optimizeFidelity
  rw [hsync]
  refine diffev_run (P := g.overParam) (f := f) (bounds := OverParam.bounds 2 1) rfl ?_ ?_ hr ?_ ?_
  · rw [hdim]; rfl
  · rw [hdim]; rfl
  · rw [hrv, finalVal, if_neg (by decide)]
  · rw [hdim]; exact hρ

/-- The hypotheses of C92 are met: routines with the contracts exist, and the runs above return. -/
example (g : Rng) : ∃ (sp : Scipy) (eig : Eigvalsh) (sqrtm : Sqrtm), sp.Correct ∧ sp.FindsMinimum ∧ eig.Correct ∧
    sqrtm.Correct ∧
    (∃ o out, QChan.init true (idOps 1) 1 1 2 2 [] = .ok o ∧
      (QChan.optimizeCoherent g sp eig sqrtm o 1 2 "diffev" (.str "cholesky") (.int 0) (.int 0) 50 ⟨true, []⟩
        false).1 = .ok out) ∧
    ∃ o out, QChan.init true dephOps 1 1 2 2 [] = .ok o ∧
      (QChan.optimizeFidelity g sp eig sqrtm o 1 "diffev" (.str "overparam") (.int 0) (.int 0) 50 ⟨true, []⟩).1 =
        .ok out := by
  obtain ⟨eig, heig⟩ := exists_eigvalsh
  obtain ⟨sqrtm, hsq⟩ := exists_sqrtm
  obtain ⟨o, out, h1, h2, -⟩ := C92_coherent_qubit heig sqrtm g
  obtain ⟨o', out', h3, h4, -⟩ := C92_fidelity_qubit hsq eig g
  exact ⟨bestScipy, eig, sqrtm, bestScipy_correct, bestScipy_finds, heig, hsq, ⟨o, out, h1, h2⟩, o', out', h3, h4⟩

end PyQ
