import Verif.Props.Optimize
import Verif.Props.Param

/-!
# C39: the optimisers do not report the best result
-/

namespace PyQ

open Matrix Polynomial
open scoped ComplexOrder

/-- An optimiser that returns its starting point. -/
noncomputable def lazyScipy : Scipy where
  slsqp := fun f x0 _ _ => do
    let v ← f x0
    return ⟨v, x0, true⟩
  diffev := fun f _ init _ _ => do
    let x := ((init.getD []).head?).getD []
    let v ← f x
    return ⟨v, x, true⟩

theorem lazyScipy_correct : lazyScipy.Correct := by
  constructor
  · intro f x0 b m r h
    obtain ⟨v, hv, h⟩ := bind_ok_iff.mp h
    injection h with h
    subst h
    exact hv
  · intro f b i p m r h
    obtain ⟨v, hv, h⟩ := bind_ok_iff.mp h
    injection h with h
    subst h
    exact hv

/-- Random numbers for which the first draw of `OverParam` is the identity and the second the projector on the
first basis vector. -/
noncomputable def twoDraws : Rng where
  normal := fun t i => if i = 0 ∨ (t = 0 ∧ i = 6) then 1 else 0
  uniform := fun _ _ _ _ => 0

theorem twoDraws_zero : twoDraws.overParam.random 0 2 2 = .ok [1, 0, 0, 0, 0, 0, 1, 0] := by
  simp [Rng.overParam, OverParam.randomVectors, OverParam.numbVariables, twoDraws, List.range_succ]

theorem twoDraws_one : twoDraws.overParam.random 1 2 2 = .ok [1, 0, 0, 0, 0, 0, 0, 0] := by
  simp [Rng.overParam, OverParam.randomVectors, OverParam.numbVariables, twoDraws, List.range_succ]

theorem twoDraws_mixed : ∃ A, twoDraws.overParam.rho [1, 0, 0, 0, 0, 0, 1, 0] 2 2 = .ok A ∧ A.rows = 2 ∧
    A.cols = 2 ∧ A.mat 2 2 = mixedState.mat 2 2 := by
  have hA : Spec.overFactor [1, 0, 0, 0, 0, 0, 1, 0] 2 2 = 1 := by
    ext i j
    fin_cases i <;> fin_cases j <;> simp [Spec.overFactor, Complex.ext_iff]
  obtain ⟨A, h1, h2, h3, h4⟩ := over_ok [1, 0, 0, 0, 0, 0, 1, 0] 2 2 rfl (by rw [hA]; exact one_ne_zero)
  refine ⟨A, ?_, h2, h3, ?_⟩
  · simp only [Rng.overParam]
    rw [OverParam.rhoFromVec_some, h1]
    rfl
  · rw [h4, hA]
    ext i j
    fin_cases i <;> fin_cases j <;> simp [mixedState, Arr.mat]

theorem twoDraws_pure : ∃ A, twoDraws.overParam.rho [1, 0, 0, 0, 0, 0, 0, 0] 2 2 = .ok A ∧ A.rows = 2 ∧
    A.cols = 2 ∧ A.mat 2 2 = vecMulVec ![1, 0] (star ![1, 0]) := by
  have hA : Spec.overFactor [1, 0, 0, 0, 0, 0, 0, 0] 2 2 = !![1, 0; 0, 0] := by
    ext i j
    fin_cases i <;> fin_cases j <;> simp [Spec.overFactor, Complex.ext_iff]
  obtain ⟨A, h1, h2, h3, h4⟩ := over_ok [1, 0, 0, 0, 0, 0, 0, 0] 2 2 rfl (by
    rw [hA]
    intro h
    have := congrFun (congrFun h 0) 0
    simp at this)
  refine ⟨A, ?_, h2, h3, ?_⟩
  · simp only [Rng.overParam]
    rw [OverParam.rhoFromVec_some, h1]
    rfl
  · have hmul : !![(1 : ℂ), 0; 0, 0] * (!![(1 : ℂ), 0; 0, 0])ᴴ = !![1, 0; 0, 0] := by
      ext i j
      rw [Matrix.mul_apply, Fin.sum_univ_two, conjTranspose_apply, conjTranspose_apply]
      fin_cases i <;> fin_cases j <;> simp
    rw [h4, hA, hmul]
    ext i j
    fin_cases i <;> fin_cases j <;> simp [vecMulVec_apply, trace_fin_two]

/-- The entropy of the maximally mixed qubit is one bit. -/
theorem entropy_mixed {eig : Eigvalsh} (heig : eig.Correct) {A : Arr ℂ} (h1 : A.rows = 2) (h2 : A.cols = 2)
    (hA : A.mat 2 2 = mixedState.mat 2 2) : entropyList eig entropyCut [A] = .ok 1 := by
  have hd : A.mat 2 2 = diagonal fun _ => (1 / 2 : ℂ) := by
    rw [hA]
    ext i j
    simp only [mixedState, Arr.mat_apply, diagonal_apply, Fin.ext_iff]
  have hc := heig A 2 h1 h2 (hA ▸ mixedState_density.1.isHermitian)
  rw [hd, charpoly_diagonal] at hc
  have hall : ∀ i : Fin 2, eig A i = 1 / 2 := by
    intro i
    have := congrArg (Polynomial.eval ((eig A i : ℝ) : ℂ)) hc
    have hz : ∏ j : Fin 2, eval ((eig A i : ℝ) : ℂ) (X - C ((eig A j : ℝ) : ℂ)) = 0 :=
      Finset.prod_eq_zero (Finset.mem_univ i) (by simp)
    rw [eval_prod, eval_prod, hz, Fin.prod_univ_two, mul_self_eq_zero] at this
    simp only [eval_sub, eval_X, eval_C] at this
    rw [sub_eq_zero] at this
    have h3 : ((eig A i : ℝ) : ℂ) = ((1 / 2 : ℝ) : ℂ) := by rw [this]; push_cast; rfl
    exact_mod_cast h3
  rw [entropyList_one eig entropyCut A (h1.trans h2.symm), entropyOne, h1]
  have h0 := hall 0
  have h1 := hall 1
  simp only [Fin.isValue, Fin.val_zero, Fin.val_one] at h0 h1
  simp only [Finset.sum_range_succ, Finset.range_zero, Finset.sum_empty, h0, h1]
  have hcut : entropyCut < |(1 / 2 : ℝ)| := by
    unfold entropyCut
    rw [abs_of_pos (by norm_num)]
    norm_num
  rw [if_pos hcut]
  have hlog : Real.logb 2 (1 / 2) = -1 := by
    rw [one_div, Real.logb_inv, Real.logb_self_eq_one (by norm_num)]
  rw [hlog]
  norm_num

/-- C39 fails for SLSQP with a pool: `optimal_val` need not be the best over the samples tried.  For the
identity channel of a qubit there are random numbers such that the first initial guess of
`optimize_coherent(n=1, rank=2, optimizer="slsqp", lipschitz=2, use_pool=1)` has coherent information `1`, and
the call returns `optimal_val = 0`. -/
theorem C39_best_refuted {eig : Eigvalsh} (heig : eig.Correct) (sqrtm : Sqrtm) :
    ∃ o, QChan.init true (idOps 1) 1 1 2 2 [] = .ok o ∧
      (∃ guess A, twoDraws.overParam.random 0 2 2 = .ok guess ∧ twoDraws.overParam.rho guess 2 2 = .ok A ∧
        (QChan.coherentInformation eig o A 1 false).1 = .ok 1) ∧
      ∃ out, (QChan.optimizeCoherent twoDraws lazyScipy eig sqrtm o 1 2 "slsqp" (.str "overparam") (.int 2) (.int 1)
        50 ⟨true, []⟩ false).1 = .ok out ∧ out.val = .num 0 := by
  obtain ⟨o, ho⟩ := init_exact true (idOps 1) 1 1 2 2 [] (by decide) rfl rfl (idOps_tp 1)
  obtain ⟨A, a1, a2, a3, a4⟩ := twoDraws_mixed
  obtain ⟨B, b1, b2, b3, b4⟩ := twoDraws_pure
  have hA : (QChan.coherentInformation eig o A 1 false).1 = .ok 1 := by
    have := C49_isometry heig ho (Or.inl rfl) (idOps_tp 1) rfl [] 1 ⟨by simp, by simp⟩ A a2 a3 (by
      change Spec.IsDensity (A.mat 2 2)
      rw [a4]
      exact mixedState_density)
    exact this.trans (entropy_mixed heig a2 a3 a4)
  have hB : (QChan.coherentInformation eig o B 1 false).1 = .ok 0 :=
    C49_pure_state heig ho (Or.inl rfl) [] 1 ⟨by simp, by simp⟩ ![1, 0] B b2 b3 b4 false
  refine ⟨o, ho, ⟨_, A, twoDraws_zero, a1, hA⟩, ?_⟩
  obtain ⟨q1, -, -, q2, -, q3, -⟩ := qchanInit_ok ho
  have hcur : o.curN = 1 := q1.1
  have hsync : QChan.sync o 1 = (.ok (), o) := by rw [QChan.sync, if_neg (by simp [hcur])]
  have hdim : (QChan.view eig sqrtm o 1).inputDim = 2 := by
    simp only [QChan.view, QChan.inputDimension, hcur, q2, q3]
    norm_num
  have hcA : (QChan.view eig sqrtm o 1).coherent A = .ok 1 := hA
  have hcB : (QChan.view eig sqrtm o 1).coherent B = .ok 0 := hB
  suffices hsuff : ∃ out, optimizeProcedure twoDraws lazyScipy (QChan.view eig sqrtm o 1) 2 "slsqp"
      (.str "overparam") "coherent" (.int 2) (.int 1) 50 ⟨true, []⟩ = .ok out ∧ out.val = .num 0 by
    obtain ⟨out, h1, h2⟩ := hsuff
    refine ⟨out, ?_, h2⟩
    unfold QChan.optimizeCoherent
    rw [hsync]
    simp only
    rw [h1]
    rfl
  generalize QChan.view eig sqrtm o 1 = c at hdim hcA hcB ⊢
  let f : Objective := fun vec => do
    let rho ← twoDraws.overParam.rho vec 2 2
    let v ← c.coherent rho
    return -v
  have hfA : f [1, 0, 0, 0, 0, 0, 1, 0] = .ok (-1) := by
    simp only [f, a1, hcA, bind, Except.bind]
    rfl
  have hfB : f [1, 0, 0, 0, 0, 0, 0, 0] = .ok (-0) := by
    simp only [f, b1, hcB, bind, Except.bind]
    rfl
  have hobj : chooseObjective c twoDraws.overParam 2 2 "coherent" = .ok f := rfl
  have hdist : 0 ≤ sumAbsDiff B A := Finset.sum_nonneg fun i _ => Finset.sum_nonneg fun j _ => norm_nonneg _
  have hstep : lipStep f twoDraws.overParam 2 2 1 ⟨[([1, 0, 0, 0, 0, 0, 1, 0], A, - -1)], - -1⟩ =
      .ok ⟨[([1, 0, 0, 0, 0, 0, 1, 0], A, - -1), ([1, 0, 0, 0, 0, 0, 0, 0], B, - -0)], listMax [- -1, - -0]⟩ := by
    unfold lipStep
    rw [twoDraws_one]
    simp only [bind, Except.bind]
    rw [b1]
    simp only
    rw [if_pos, hfB]
    · rfl
    · intro x hx
      simp only [lipBounds, List.map_cons, List.map_nil, List.mem_singleton] at hx
      rw [hx]
      linarith
  have hloop : lipLoop f twoDraws.overParam 2 2 2 1000 1 ⟨[([1, 0, 0, 0, 0, 0, 1, 0], A, - -1)], - -1⟩ =
      .ok ⟨[([1, 0, 0, 0, 0, 0, 1, 0], A, - -1), ([1, 0, 0, 0, 0, 0, 0, 0], B, - -0)], listMax [- -1, - -0]⟩ := by
    rw [show (1000 : ℕ) = 998 + 1 + 1 from rfl, lipLoop, if_pos (by simp), hstep]
    simp only [bind, Except.bind]
    rw [lipLoop, if_neg (by simp)]
  have hguess : initialGuesses f twoDraws.overParam 2 2 2 1000 =
      .ok ([[1, 0, 0, 0, 0, 0, 1, 0], [1, 0, 0, 0, 0, 0, 0, 0]], [- -1, - -0], true) := by
    unfold initialGuesses
    rw [twoDraws_zero]
    simp only [bind, Except.bind]
    rw [a1]
    simp only
    rw [hfA]
    simp only
    rw [hloop]
    rfl
  refine ⟨⟨B, .num (-(-0)), "slsqp", true, true, "coherent"⟩, ?_, by simp⟩
  have hrunA : lazyScipy.slsqp f [1, 0, 0, 0, 0, 0, 1, 0] (OverParam.bounds 2 2) 50 =
      .ok ⟨-1, [1, 0, 0, 0, 0, 0, 1, 0], true⟩ := by
    simp only [lazyScipy, hfA]; rfl
  have hrunB : lazyScipy.slsqp f [1, 0, 0, 0, 0, 0, 0, 0] (OverParam.bounds 2 2) 50 =
      .ok ⟨-0, [1, 0, 0, 0, 0, 0, 0, 0], true⟩ := by
    simp only [lazyScipy, hfB]; rfl
  have hsel : poolSelect [⟨-1, [1, 0, 0, 0, 0, 0, 1, 0], true⟩, ⟨-0, [1, 0, 0, 0, 0, 0, 0, 0], true⟩] =
      ⟨-0, some [1, 0, 0, 0, 0, 0, 0, 0], true⟩ := by
    simp only [poolSelect, List.foldl_cons, List.foldl_nil]
    rw [poolStep, if_pos]
    rw [poolStep, if_pos (by norm_num)]
    norm_num
  have hrun : runOptimizer lazyScipy f (OverParam.bounds 2 2) "slsqp" 2 1 50
      [[1, 0, 0, 0, 0, 0, 1, 0], [1, 0, 0, 0, 0, 0, 0, 0]] =
      .ok (.num (-0), true, some [1, 0, 0, 0, 0, 0, 0, 0]) := by
    unfold runOptimizer
    rw [if_neg (by decide), if_pos rfl]
    simp only [pyAssert, bind, Except.bind]
    rw [if_pos (by decide)]
    simp only
    rw [if_pos (by decide), mapM_cons_except, hrunA]
    simp only [Except.bind]
    rw [mapM_cons_except, hrunB]
    simp only [Except.bind, List.mapM_nil, pure, Except.pure]
    rw [hsel]
  have hgather : gatherSamples f twoDraws.overParam 2 2 2 [] =
      .ok [[1, 0, 0, 0, 0, 0, 1, 0], [1, 0, 0, 0, 0, 0, 0, 0]] := by
    unfold gatherSamples
    rw [if_pos (by decide), hguess]
    rfl
  unfold optimizeProcedure
  rw [hdim]
  have hs : getScheme twoDraws (.str "overparam") = .ok twoDraws.overParam := by
    simp [getScheme]
  rw [hs]
  simp only [bind, Except.bind]
  rw [hobj]
  simp only
  have hch : checkOptions "slsqp" (.int 2) (.int 1) ⟨true, []⟩ = .ok () := by
    simp [checkOptions, pyAssert, PyNum.isInt, PyNum.assertNonneg, PyNum.toInt, bind, Except.bind]
  rw [hch]
  simp only
  rw [show twoDraws.overParam.bounds 2 2 = .ok (OverParam.bounds 2 2) from rfl]
  simp only
  rw [show (PyNum.int 2).toInt.toNat = 2 from rfl, show (PyNum.int 1).toInt = 1 from rfl, hgather]
  simp only
  rw [hrun]
  simp only [finalVal, if_true, negate]
  rw [b1]
  rfl

/-- A channel with constant coherent information and fidelity. -/
noncomputable def flatView : ChanView where
  inputDim := 1
  coherent := fun _ => .ok 0
  fidelity := fun _ => .ok 1

theorem flat_guess (f : Objective) (hf : ∀ v, f v = .ok 1 ∨ f v = .ok (-0)) :
    ∃ vecs evals, initialGuesses f lineScheme 1 1 1 1000 = .ok (vecs, evals, true) := by
  obtain ⟨r, hr⟩ := C40_total (f := f) (P := lineScheme) (nsize := 1) (rank := 1) 1 1000 fun t => by
    rcases hf [(t : ℝ)] with h | h
    · exact ⟨_, _, _, rfl, rfl, h⟩
    · exact ⟨_, _, _, rfl, rfl, h⟩
  obtain ⟨vecs, evals, success⟩ := r
  obtain ⟨-, -, -, -, -, h1, h2, h3, -⟩ := C40_sampler hr
  have hs : success = true := h3.mpr (by omega)
  rw [hs] at hr
  exact ⟨vecs, evals, hr⟩

/-- The hypotheses of `C41_accepted_iff` are met: SLSQP with one sample and two processes returns. -/
example : ∃ out, optimizeProcedure twoDraws lazyScipy flatView 1 "slsqp" (.inst lineScheme) "coherent" (.int 1)
    (.int 2) 50 ⟨false, []⟩ = .ok out := by
  refine (C41_accepted_iff (P := lineScheme) rfl rfl rfl ?_ ?_ ?_ ?_).mpr ?_
  · intro _
    exact flat_guess _ fun v => Or.inr rfl
  · intro x0
    exact ⟨⟨-0, x0, true⟩, rfl, by norm_num, _, rfl⟩
  · intro i p
    exact ⟨⟨-0, ((i.getD []).head?).getD [], true⟩, rfl, _, rfl⟩
  · intro _
    decide
  · exact ⟨⟨rfl, by decide⟩, Or.inl rfl, ⟨rfl, by decide⟩, Or.inr ⟨rfl, by decide⟩⟩

/-- The hypotheses of `C39_loop_error` are met: SLSQP without a pool on the coherent information raises. -/
example : optimizeProcedure twoDraws lazyScipy flatView 1 "slsqp" (.inst lineScheme) "coherent" (.int 1)
    (.int 0) 50 ⟨false, []⟩ = .error .type := by
  obtain ⟨vecs, evals, h⟩ := flat_guess (fun vec => do
    let rho ← lineScheme.rho vec 1 1
    let v ← flatView.coherent rho
    return -v) fun v => Or.inr rfl
  obtain ⟨L, -, -, hv, -, h1, -⟩ := C40_sampler h
  have hne : vecs ≠ [] := by
    rintro rfl
    simp at h1
  refine C39_loop_error (P := lineScheme) (all := vecs) rfl rfl rfl (by decide) rfl (by decide) ?_ ?_ hne (Or.inl rfl)
  · unfold gatherSamples
    rw [if_pos (by decide)]
    exact congrArg (fun q => q >>= fun r => do
      pyAssert (r.2.2 = true)
      return ([] : List (List ℝ)) ++ r.1) h
  · intro x0 _
    exact ⟨⟨-0, x0, true⟩, rfl, by norm_num⟩

/-- The hypotheses of `C39_loop_unbound` are met: an optimiser that reports the value -10^11 from every guess. -/
example : optimizeProcedure twoDraws { lazyScipy with slsqp := fun _ x0 _ _ => .ok ⟨-10 ^ 11, x0, false⟩ } flatView 1 "slsqp"
    (.inst lineScheme) "coherent" (.int 1) (.int 0) 50 ⟨false, []⟩ = .error .unboundLocal := by
  obtain ⟨vecs, evals, h⟩ := flat_guess (fun vec => do
    let rho ← lineScheme.rho vec 1 1
    let v ← flatView.coherent rho
    return -v) fun v => Or.inr rfl
  refine C39_loop_unbound (P := lineScheme) (all := vecs) rfl rfl rfl (by decide) rfl (by decide) ?_ ?_
  · unfold gatherSamples
    rw [if_pos (by decide)]
    exact congrArg (fun q => q >>= fun r => do
      pyAssert (r.2.2 = true)
      return ([] : List (List ℝ)) ++ r.1) h
  · intro x0 _
    exact ⟨⟨-10 ^ 11, x0, false⟩, rfl, by norm_num⟩

/-- SLSQP without a pool returns for the minimum fidelity and one sample, with a result object as
`optimal_val`. -/
example : ∃ out r, optimizeProcedure twoDraws lazyScipy flatView 1 "slsqp" (.inst lineScheme) "fidelity" (.int 1)
    (.int 0) 50 ⟨false, []⟩ = .ok out ∧ out.val = .res r := by
  have hlen : ∃ v e, initialGuesses (fun vec => do
      let rho ← lineScheme.rho vec 1 1
      flatView.fidelity rho) lineScheme 1 1 1 1000 = .ok ([v], [e], true) := by
    obtain ⟨vecs, evals, h⟩ := flat_guess (fun vec => do
      let rho ← lineScheme.rho vec 1 1
      flatView.fidelity rho) fun v => Or.inl rfl
    obtain ⟨L, -, -, hv, he, h1, h2, -⟩ := C40_sampler h
    rw [hv, List.length_map] at h1 h2
    obtain ⟨q, rfl⟩ := List.length_eq_one_iff.mp (le_antisymm h2 h1)
    exact ⟨q.vec, q.value, by rw [h, hv, he]; rfl⟩
  obtain ⟨v, e, hg⟩ := hlen
  have hlt : (-10 ^ 10 : ℝ) < 1 := by norm_num
  have : optimizeProcedure twoDraws lazyScipy flatView 1 "slsqp" (.inst lineScheme) "fidelity" (.int 1)
    (.int 0) 50 ⟨false, []⟩ = .ok ⟨⟨1, 1, fun _ _ => ((v.getD 0 0 : ℝ) : ℂ)⟩, .res ⟨1, v, true⟩, "slsqp", true,
      true, "fidelity"⟩ := by
    unfold optimizeProcedure
    rw [show getScheme twoDraws (.inst lineScheme) = .ok lineScheme from rfl]
    simp only [bind, Except.bind]
    rw [show chooseObjective flatView lineScheme flatView.inputDim 1 "fidelity" = .ok (fun vec => do
      let rho ← lineScheme.rho vec 1 1
      flatView.fidelity rho) from rfl]
    simp only
    have hch : checkOptions "slsqp" (.int 1) (.int 0) ⟨false, []⟩ = .ok () :=
      checkOptions_ok_iff.mpr ⟨⟨rfl, by decide⟩, Or.inl rfl, ⟨rfl, by decide⟩, fun _ _ => by decide⟩
    rw [hch]
    simp only
    rw [show lineScheme.bounds flatView.inputDim 1 = .ok [(0, 10)] from rfl]
    simp only
    rw [show gatherSamples (fun vec => do
      let rho ← lineScheme.rho vec 1 1
      flatView.fidelity rho) lineScheme flatView.inputDim 1 (PyNum.int 1).toInt.toNat [] = .ok [v] by
        unfold gatherSamples
        rw [if_pos (by decide)]
        rw [show (PyNum.int 1).toInt.toNat = 1 from rfl, show flatView.inputDim = 1 from rfl, hg]
        rfl]
    simp only
    rw [show runOptimizer lazyScipy (fun vec => do
      let rho ← lineScheme.rho vec 1 1
      flatView.fidelity rho) [(0, 10)] "slsqp" (PyNum.int 1).toInt.toNat (PyNum.int 0).toInt 50 [v] =
        .ok (.res ⟨1, v, true⟩, true, some v) by
        unfold runOptimizer
        rw [if_neg (by decide), if_pos rfl]
        simp only [pyAssert, bind, Except.bind]
        rw [if_pos (by decide)]
        simp only
        rw [if_neg (by decide)]
        simp only [samplesLoop, lazyScipy, lineScheme, flatView, bind, Except.bind, pure, Except.pure]
        rw [if_pos (by simpa using hlt)]]
    rfl
  exact ⟨_, _, this, rfl⟩

end PyQ
