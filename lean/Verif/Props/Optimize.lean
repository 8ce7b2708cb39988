import Verif.Props.Sampler
import Verif.Props.Entropy

/-!
# C39, C41: the optimisers

`sp : Scipy` stands for scipy's optimisers and `g : Rng` for the random numbers; the theorems hold for all of
them.  `Scipy.Correct` only asks that the reported value is the objective at the reported point.
-/

namespace PyQ

open Matrix
open scoped ComplexOrder

variable {g : Rng} {sp : Scipy} {c : ChanView} {rank maxiter : ℕ} {optimizer objective : String}
  {param : ParamArg} {lipschitz usePool : PyNum} {samples : SamplesArg} {out : OptOutput}

theorem bind_ok_iff {ε α β : Type} {x : Except ε α} {k : α → Except ε β} {r : β} :
    (x >>= k) = .ok r ↔ ∃ a, x = .ok a ∧ k a = .ok r := by
  cases x with
  | error e => simp [bind, Except.bind]
  | ok a => simp [bind, Except.bind]

/-- What a successful call of `optimize_procedure` went through. -/
theorem optimizeProcedure_ok
    (h : optimizeProcedure g sp c rank optimizer param objective lipschitz usePool maxiter samples = .ok out) :
    ∃ P f bounds all r val x, getScheme g param = .ok P ∧ chooseObjective c P c.inputDim rank objective = .ok f ∧
      checkOptions optimizer lipschitz usePool samples = .ok () ∧ P.bounds c.inputDim rank = .ok bounds ∧
      gatherSamples f P c.inputDim rank lipschitz.toInt.toNat samples.elems = .ok all ∧
      runOptimizer sp f bounds optimizer lipschitz.toInt.toNat usePool.toInt maxiter all = .ok r ∧
      finalVal objective r.1 = .ok val ∧ r.2.2 = some x ∧
      P.rho x c.inputDim rank = .ok out.rho ∧ out.val = val ∧ out.method = optimizer ∧
      out.lipschitz = decide (lipschitz.toInt.toNat ≠ 0) ∧ out.success = r.2.1 ∧ out.objective = objective := by
  unfold optimizeProcedure at h
  obtain ⟨P, hP, h⟩ := bind_ok_iff.mp h
  obtain ⟨f, hf, h⟩ := bind_ok_iff.mp h
  obtain ⟨_, hc, h⟩ := bind_ok_iff.mp h
  obtain ⟨bounds, hb, h⟩ := bind_ok_iff.mp h
  obtain ⟨all, ha, h⟩ := bind_ok_iff.mp h
  obtain ⟨r, hr, h⟩ := bind_ok_iff.mp h
  obtain ⟨val, hv, h⟩ := bind_ok_iff.mp h
  rcases hx : r.2.2 with _ | x
  · rw [hx] at h; cases h
  rw [hx] at h
  obtain ⟨rho, hrho, h⟩ := bind_ok_iff.mp h
  injection h with h
  subst h
  exact ⟨P, f, bounds, all, r, val, x, hP, hf, hc, hb, ha, hr, hv, hx, hrho, rfl, rfl, rfl, rfl, rfl⟩

/-! ### The selection among the results -/

/-- Whatever the results, the pool reports a result of one of the samples, or nothing at all. -/
theorem poolSelect_mem (results : List OptRes) :
    poolSelect results = ⟨-10 ^ 10, none, false⟩ ∨
      ∃ r ∈ results, poolSelect results = ⟨r.fun_, some r.x, r.success⟩ := by
  unfold poolSelect
  have key : ∀ (l : List OptRes) (s : PoolState), l.foldl poolStep s = s ∨
      ∃ r ∈ l, l.foldl poolStep s = ⟨r.fun_, some r.x, r.success⟩ := by
    intro l
    induction l with
    | nil => intro s; exact Or.inl rfl
    | cons r l ih =>
      intro s
      rw [List.foldl_cons]
      rcases ih (poolStep s r) with h | ⟨q, hq, h⟩
      · rw [h]
        unfold poolStep
        split_ifs
        · exact Or.inr ⟨r, List.mem_cons_self, rfl⟩
        · exact Or.inl rfl
      · exact Or.inr ⟨q, List.mem_cons_of_mem _ hq, h⟩
  exact key results _

/-- C39, the best is not selected: if every result is negative (the coherent information is positive at every result) the last one is
reported, whatever the values. -/
theorem C39_pool_last (results : List OptRes) (r : OptRes) (h : ∀ q ∈ results, q.fun_ < 0) (hr : r.fun_ < 0) :
    poolSelect (results ++ [r]) = ⟨r.fun_, some r.x, r.success⟩ := by
  unfold poolSelect
  have key : ∀ (l : List OptRes) (s : PoolState), (∀ q ∈ l, q.fun_ < 0) → s.maxima < 0 →
      (l.foldl poolStep s).maxima < 0 := by
    intro l
    induction l with
    | nil => intro s _ hs; exact hs
    | cons q l ih =>
      intro s hl hs
      rw [List.foldl_cons]
      refine ih _ (fun p hp => hl p (List.mem_cons_of_mem _ hp)) ?_
      unfold poolStep
      split_ifs
      · exact hl q List.mem_cons_self
      · exact hs
  rw [List.foldl_append, List.foldl_cons, List.foldl_nil]
  have hm := key results ⟨-10 ^ 10, none, false⟩ h (by norm_num)
  rw [poolStep, if_pos (by linarith)]

/-- C39, the best is not selected: if no result is negative (for instance for the fidelity) the first one is reported, whatever the values. -/
theorem C39_pool_first (results : List OptRes) (r : OptRes) (h : ∀ q ∈ results, 0 ≤ q.fun_) (h0 : 0 ≤ r.fun_)
    (hr : r.fun_ < 10 ^ 10) : poolSelect (r :: results) = ⟨r.fun_, some r.x, r.success⟩ := by
  unfold poolSelect
  rw [List.foldl_cons]
  have h1 : poolStep ⟨-10 ^ 10, none, false⟩ r = ⟨r.fun_, some r.x, r.success⟩ := by
    rw [poolStep, if_pos]
    simp only
    linarith
  rw [h1]
  induction results with
  | nil => rfl
  | cons q l ih =>
    rw [List.foldl_cons, poolStep, if_neg]
    · exact ih fun p hp => h p (List.mem_cons_of_mem _ hp)
    · have := h q List.mem_cons_self
      simp only
      linarith

theorem samplesLoop_res {minimize : List ℝ → Except PyErr OptRes} :
    ∀ (ss : List (List ℝ)) (v : OptVal) (p : Option (Bool × List ℝ)) (r : OptVal × Bool × List ℝ),
    (p = none ↔ ∃ w, v = .num w) → samplesLoop minimize ss v p = .ok r → ∃ q, r.1 = .res q := by
  intro ss
  induction ss with
  | nil =>
    intro v p r hp h
    cases p with
    | none => simp [samplesLoop] at h
    | some p =>
      simp only [samplesLoop] at h
      injection h with h
      subst h
      cases v with
      | num w => exact absurd (hp.mpr ⟨w, rfl⟩) (by simp)
      | res q => exact ⟨q, rfl⟩
  | cons s ss ih =>
    intro v p r hp h
    simp only [samplesLoop] at h
    obtain ⟨q, hq, h⟩ := bind_ok_iff.mp h
    cases v with
    | res q => cases h
    | num w =>
      simp only at h
      split_ifs at h
      · refine ih _ _ r ?_ h
        simp
      · exact ih _ _ r hp h

/-- `runOptimizer` reports the objective at the point it reports, for differential evolution and for SLSQP with
a pool. -/
theorem runOptimizer_value (hsp : sp.Correct) {f : Objective} {bounds : List (ℝ × ℝ)} {lip : ℕ} {pool : ℤ}
    {all : List (List ℝ)} {r : OptVal × Bool × Option (List ℝ)}
    (h : runOptimizer sp f bounds optimizer lip pool maxiter all = .ok r)
    (hm : optimizer = "diffev" ∨ pool ≠ 0) {x : List ℝ} (hx : r.2.2 = some x) :
    ∃ v, r.1 = .num v ∧ f x = .ok v := by
  unfold runOptimizer at h
  by_cases hd : optimizer = "diffev"
  · rw [if_pos hd] at h
    obtain ⟨q, hq, h⟩ := bind_ok_iff.mp h
    injection h with h
    subst h
    simp only [Option.some.injEq] at hx
    subst hx
    exact ⟨q.fun_, rfl, hsp.2 _ _ _ _ _ _ hq⟩
  · rw [if_neg hd] at h
    by_cases hs : optimizer = "slsqp"
    · rw [if_pos hs] at h
      obtain ⟨_, _, h⟩ := bind_ok_iff.mp h
      have hp : pool ≠ 0 := by
        rcases hm with hm | hm
        · exact absurd hm hd
        · exact hm
      rw [if_pos hp] at h
      obtain ⟨results, hres, h⟩ := bind_ok_iff.mp h
      injection h with h
      subst h
      simp only at hx
      rcases poolSelect_mem results with h0 | ⟨q, hq, h0⟩
      · rw [h0] at hx; cases hx
      · rw [h0] at hx
        simp only [Option.some.injEq] at hx
        subst hx
        refine ⟨q.fun_, by rw [h0], ?_⟩
        have hall := List.forall₂_iff_get.mp (mapM_ok_iff.mp hres)
        obtain ⟨i, hi, rfl⟩ := List.mem_iff_get.mp hq
        have := hall.2 i.1 (by rw [hall.1]; exact i.2) i.2
        exact hsp.1 _ _ _ _ _ this
    · rw [if_neg hs] at h; cases h

/-! ### C39 -/

/-- C39.  `optimize_procedure` for the coherent information, with differential evolution or with SLSQP and a
pool: `optimal_val` is the coherent information of `optimal_rho`. -/
theorem C39_coherent_value (hsp : sp.Correct)
    (h : optimizeProcedure g sp c rank optimizer param "coherent" lipschitz usePool maxiter samples = .ok out)
    (hm : optimizer = "diffev" ∨ usePool.toInt ≠ 0) :
    ∃ v, out.val = .num v ∧ c.coherent out.rho = .ok v := by
  obtain ⟨P, f, bounds, all, r, val, x, -, hf, -, -, -, hr, hv, hx, hrho, ho, -⟩ := optimizeProcedure_ok h
  obtain ⟨w, hw, hfx⟩ := runOptimizer_value hsp hr hm hx
  rw [finalVal, if_pos rfl, hw] at hv
  injection hv with hv
  rw [chooseObjective, if_pos rfl] at hf
  injection hf with hf
  subst hf
  obtain ⟨rho, hrho', hfx⟩ := bind_ok_iff.mp hfx
  rw [hrho] at hrho'
  injection hrho' with hrho'
  subst hrho'
  obtain ⟨u, hu, hfx⟩ := bind_ok_iff.mp hfx
  injection hfx with hfx
  refine ⟨u, ?_, hu⟩
  rw [ho, ← hv, ← hfx, neg_neg]

/-- C39.  The same for the minimum fidelity, which is evaluated at rank one. -/
theorem C39_fidelity_value (hsp : sp.Correct)
    (h : optimizeProcedure g sp c 1 optimizer param "fidelity" lipschitz usePool maxiter samples = .ok out)
    (hm : optimizer = "diffev" ∨ usePool.toInt ≠ 0) :
    ∃ v, out.val = .num v ∧ c.fidelity out.rho = .ok v := by
  obtain ⟨P, f, bounds, all, r, val, x, -, hf, -, -, -, hr, hv, hx, hrho, ho, -⟩ := optimizeProcedure_ok h
  obtain ⟨w, hw, hfx⟩ := runOptimizer_value hsp hr hm hx
  rw [finalVal, if_neg (by decide), hw] at hv
  injection hv with hv
  rw [chooseObjective, if_neg (by decide), if_pos rfl] at hf
  injection hf with hf
  subst hf
  simp only [hrho] at hfx
  exact ⟨w, by rw [ho, ← hv], hfx⟩

/-- The evaluations made by the optimisers do not change a channel object that is set to `n` uses. -/
theorem QChan.view_state {eig : Eigvalsh} {sqrtm : Sqrtm} {o : KrausObj} {n : ℕ} (hn : o.curN = n) (rho : Arr ℂ)
    (reg : Bool) :
    (QChan.coherentInformation eig o rho n reg).2 = o ∧ (QChan.fidelityTwoStates sqrtm o rho n).2 = o := by
  have hs : QChan.sync o n = (.ok (), o) := by rw [QChan.sync, if_neg (by simp [hn])]
  have hc : QChan.channel o rho n false = (o.channel rho false, o) := by rw [QChan.channel, hs]
  have he : QChan.entropyExchange o rho n = (o.entropyExchange rho n, o) := by rw [QChan.entropyExchange, hs]
  constructor
  · unfold QChan.coherentInformation
    rw [hc]
    rcases o.channel rho false with e | y
    · rfl
    · simp only
      rw [he]
      rcases o.entropyExchange rho n with e | z <;> rfl
  · unfold QChan.fidelityTwoStates
    rw [hc]
    rcases o.channel rho false with e | y <;> rfl

/-- After the synchronisation the object is set to `n` uses. -/
theorem QChan.sync_curN {o o' : KrausObj} {n : ℕ} {r : Except PyErr Unit} (h : QChan.sync o n = (r, o')) :
    o'.curN = n := by
  unfold QChan.sync at h
  split_ifs at h with hn
  · unfold KrausObj.update at h
    simp only at h
    rcases hx : ({ o.retensor n with curN := n } : KrausObj).exchange with e | x
    · rw [hx] at h
      have h2 : _ = o' := congrArg Prod.snd h
      rw [← h2]
    · rw [hx] at h
      have h2 : _ = o' := congrArg Prod.snd h
      rw [← h2]
  · have h2 := congrArg Prod.snd h
    simp only at h2
    rw [← h2]
    exact (not_not.mp hn).symm

theorem coherent_regularized {eig : Eigvalsh} {o : KrausObj} {rho : Arr ℂ} {n : ℕ} {v : ℝ}
    (h : (QChan.coherentInformation eig o rho n false).1 = .ok v) :
    (QChan.coherentInformation eig o rho n true).1 = .ok (v / n) := by
  unfold QChan.coherentInformation at h ⊢
  rcases hc : QChan.channel o rho n false with ⟨e | y, o'⟩
  · rw [hc] at h; cases h
  rw [hc] at h
  simp only at h ⊢
  rcases hx : QChan.entropyExchange o' rho n with ⟨e | z, o''⟩
  · rw [hx] at h; cases h
  rw [hx] at h
  simp only at h ⊢
  obtain ⟨s, hs, h⟩ := bind_ok_iff.mp h
  obtain ⟨t, ht, h⟩ := bind_ok_iff.mp h
  rw [hs, ht]
  injection h with h
  rw [if_neg (by simp)] at h
  simp only [bind, Except.bind, if_true, h]
  rfl

/-- C39.  `chan.optimize_coherent(n, rank, ...)` with differential evolution or with SLSQP and a pool: when it
returns, calling `chan.coherent_information(optimal_rho, n, regularized)` on the same object returns
`optimal_val`. -/
theorem C39_optimize_coherent (hsp : sp.Correct) {eig : Eigvalsh} {sqrtm : Sqrtm} {o o' : KrausObj} {n : ℕ}
    {reg : Bool}
    (h : QChan.optimizeCoherent g sp eig sqrtm o n rank optimizer param lipschitz usePool maxiter samples reg =
      (.ok out, o')) (hm : optimizer = "diffev" ∨ usePool.toInt ≠ 0) :
    ∃ v, out.val = .num v ∧ QChan.coherentInformation eig o' out.rho n reg = (.ok v, o') := by
  unfold QChan.optimizeCoherent at h
  rcases hs : QChan.sync o n with ⟨e | u, o1⟩
  · rw [hs] at h
    have := congrArg Prod.fst h
    cases this
  rw [hs] at h
  simp only [Prod.mk.injEq] at h
  obtain ⟨h, rfl⟩ := h
  obtain ⟨r, hr, h⟩ := bind_ok_iff.mp h
  obtain ⟨w, hw, hcoh⟩ := C39_coherent_value hsp hr hm
  have hst := fun rho reg => (QChan.view_state (eig := eig) (sqrtm := sqrtm) (QChan.sync_curN hs) rho reg).1
  cases reg with
  | false =>
    rw [if_neg (by simp)] at h
    injection h with h
    subst h
    exact ⟨w, hw, Prod.ext hcoh (hst _ _)⟩
  | true =>
    rw [if_pos rfl] at h
    unfold divideVal at h
    rw [hw] at h
    simp only at h
    split_ifs at h with hn
    injection h with h
    subst h
    exact ⟨w / n, rfl, Prod.ext (coherent_regularized hcoh) (hst _ _)⟩

/-- C39.  `chan.optimize_fidelity(n, ...)` with differential evolution or with SLSQP and a pool: when it
returns, calling `chan.fidelity_two_states(optimal_rho, n)` on the same object returns `optimal_val`. -/
theorem C39_optimize_fidelity (hsp : sp.Correct) {eig : Eigvalsh} {sqrtm : Sqrtm} {o o' : KrausObj} {n : ℕ}
    (h : QChan.optimizeFidelity g sp eig sqrtm o n optimizer param lipschitz usePool maxiter samples =
      (.ok out, o')) (hm : optimizer = "diffev" ∨ usePool.toInt ≠ 0) :
    ∃ v, out.val = .num v ∧ QChan.fidelityTwoStates sqrtm o' out.rho n = (.ok v, o') := by
  unfold QChan.optimizeFidelity at h
  rcases hs : QChan.sync o n with ⟨e | u, o1⟩
  · rw [hs] at h
    have := congrArg Prod.fst h
    cases this
  rw [hs] at h
  simp only [Prod.mk.injEq] at h
  obtain ⟨h, rfl⟩ := h
  obtain ⟨w, hw, hfid⟩ := C39_fidelity_value hsp h hm
  exact ⟨w, hw, Prod.ext hfid (QChan.view_state (eig := eig) (sqrtm := sqrtm) (QChan.sync_curN hs) _ false).2⟩

/-- C39, what SLSQP with a pool reports: the result that scipy found from one of the initial guesses, which are
the samples of the user and those of the Lipschitz sampler.  Missing: that this is the best of the results. -/
theorem C39_pool_partial (hp : usePool.toInt ≠ 0)
    (h : optimizeProcedure g sp c rank "slsqp" param objective lipschitz usePool maxiter samples = .ok out) :
    ∃ P f bounds lip guess r, getScheme g param = .ok P ∧
      chooseObjective c P c.inputDim rank objective = .ok f ∧ P.bounds c.inputDim rank = .ok bounds ∧
      initialGuesses f P c.inputDim rank lipschitz.toInt.toNat 1000 = .ok lip ∧
      guess ∈ samples.elems ++ lip.1 ∧ sp.slsqp f guess bounds maxiter = .ok r ∧
      P.rho r.x c.inputDim rank = .ok out.rho ∧ out.success = r.success ∧
      out.val = .num (if objective = "coherent" then -r.fun_ else r.fun_) := by
  obtain ⟨P, f, bounds, all, r, val, x, hP, hf, -, hb, ha, hr, hv, hx, hrho, ho, -, -, hsucc, -⟩ :=
    optimizeProcedure_ok h
  unfold runOptimizer at hr
  rw [if_neg (by decide), if_pos rfl] at hr
  obtain ⟨_, hlip, hr⟩ := bind_ok_iff.mp hr
  rw [if_pos hp] at hr
  obtain ⟨results, hres, hr⟩ := bind_ok_iff.mp hr
  injection hr with hr
  subst hr
  have hlip' : lipschitz.toInt.toNat ≠ 0 := by
    intro h0
    simp [pyAssert, h0] at hlip
  unfold gatherSamples at ha
  rw [if_pos hlip'] at ha
  obtain ⟨lip, hl, ha⟩ := bind_ok_iff.mp ha
  obtain ⟨_, -, ha⟩ := bind_ok_iff.mp ha
  injection ha with ha
  subst ha
  simp only at hx hsucc hv
  rcases poolSelect_mem results with h0 | ⟨q, hq, h0⟩
  · rw [h0] at hx; cases hx
  rw [h0] at hx hsucc hv
  simp only [Option.some.injEq] at hx hsucc hv
  subst hx
  have hall := List.forall₂_iff_get.mp (mapM_ok_iff.mp hres)
  obtain ⟨i, hi, rfl⟩ := List.mem_iff_get.mp hq
  have hi' : i.1 < (samples.elems ++ lip.1).length := by rw [hall.1]; exact i.2
  refine ⟨P, f, bounds, lip, (samples.elems ++ lip.1).get ⟨i.1, hi'⟩, results.get i, hP, hf, hb, hl,
    List.get_mem _ _, hall.2 i.1 hi' i.2, hrho, hsucc, ?_⟩
  rw [ho]
  unfold finalVal at hv
  split_ifs at hv ⊢
  · injection hv with hv; exact hv.symm
  · injection hv with hv; exact hv.symm

/-- C39 fails for SLSQP without a pool: the coherent information can never be optimised, whatever the channel,
the options, the random numbers and scipy do. -/
theorem C39_loop_coherent_refuted (h0 : usePool.toInt = 0) :
    optimizeProcedure g sp c rank "slsqp" param "coherent" lipschitz usePool maxiter samples ≠ .ok out := by
  intro h
  obtain ⟨P, f, bounds, all, r, val, x, -, -, -, -, -, hr, hv, -⟩ := optimizeProcedure_ok h
  unfold runOptimizer at hr
  rw [if_neg (by decide), if_pos rfl] at hr
  obtain ⟨_, _, hr⟩ := bind_ok_iff.mp hr
  rw [if_neg (by simp [h0])] at hr
  obtain ⟨p, hp, hr⟩ := bind_ok_iff.mp hr
  injection hr with hr
  subst hr
  obtain ⟨q, hq⟩ := samplesLoop_res _ _ _ _ (by simp) hp
  rw [finalVal, if_pos rfl] at hv
  simp only [hq, negate, reduceCtorEq] at hv

/-- C39 fails for SLSQP without a pool: when the minimum fidelity is optimised and the call returns,
`optimal_val` is not a number but a whole result object of scipy. -/
theorem C39_loop_fidelity_refuted (h0 : usePool.toInt = 0)
    (h : optimizeProcedure g sp c rank "slsqp" param "fidelity" lipschitz usePool maxiter samples = .ok out) :
    ∃ r, out.val = .res r := by
  obtain ⟨P, f, bounds, all, r, val, x, -, -, -, -, -, hr, hv, -, -, ho, -⟩ := optimizeProcedure_ok h
  unfold runOptimizer at hr
  rw [if_neg (by decide), if_pos rfl] at hr
  obtain ⟨_, _, hr⟩ := bind_ok_iff.mp hr
  rw [if_neg (by simp [h0])] at hr
  obtain ⟨p, hp, hr⟩ := bind_ok_iff.mp hr
  injection hr with hr
  subst hr
  obtain ⟨q, hq⟩ := samplesLoop_res _ _ _ _ (by simp) hp
  rw [finalVal, if_neg (by decide)] at hv
  injection hv with hv
  exact ⟨q, by rw [ho, ← hv, hq]⟩

/-- C39, the exception of SLSQP without a pool: when the search from every guess returns a value above the start value
-10^10, the coherent information gives `TypeError` for every number of guesses, and both objectives give it from two
guesses on. -/
theorem C39_loop_error (h0 : usePool.toInt = 0) {P : Scheme} {f : Objective} {bounds : List (ℝ × ℝ)} {all : List (List ℝ)}
    (hP : getScheme g param = .ok P) (hf : chooseObjective c P c.inputDim rank objective = .ok f)
    (hc : checkOptions "slsqp" lipschitz usePool samples = .ok ()) (hb : P.bounds c.inputDim rank = .ok bounds)
    (hl : lipschitz.toInt.toNat ≠ 0) (ha : gatherSamples f P c.inputDim rank lipschitz.toInt.toNat samples.elems = .ok all)
    (hr : ∀ s ∈ all, ∃ r, sp.slsqp f s bounds maxiter = .ok r ∧ -10 ^ 10 < r.fun_) (hne : all ≠ [])
    (ho : objective = "coherent" ∨ 2 ≤ all.length) :
    optimizeProcedure g sp c rank "slsqp" param objective lipschitz usePool maxiter samples = .error .type := by
  unfold optimizeProcedure
  rw [hP, ok_bind', hf, ok_bind', hc, ok_bind', hb, ok_bind']
  simp only
  rw [ha, ok_bind']
  unfold runOptimizer
  rw [if_neg (by decide), if_pos rfl]
  unfold pyAssert
  rw [if_pos hl, ok_bind', if_neg (by simp [h0])]
  obtain ⟨s, rest, rfl⟩ := List.exists_cons_of_ne_nil hne
  obtain ⟨r, hr1, hr2⟩ := hr s (by simp)
  rw [samplesLoop, hr1, ok_bind']
  simp only
  rw [if_pos (by simpa using hr2)]
  rcases rest with _ | ⟨s', rest⟩
  · have ho' := ho.resolve_right (by simp)
    rw [samplesLoop, ok_bind', pure_ok', ok_bind']
    simp only [finalVal]
    rw [if_pos ho', negate, error_bind']
  · obtain ⟨r', hr1', -⟩ := hr s' (by simp)
    rw [samplesLoop, hr1', ok_bind', error_bind', error_bind']

/-- C39, SLSQP without a pool: when no search returns a value above the start value -10^10, the variables that hold the
result were never assigned and the call ends in `UnboundLocalError`. -/
theorem C39_loop_unbound (h0 : usePool.toInt = 0) {P : Scheme} {f : Objective} {bounds : List (ℝ × ℝ)} {all : List (List ℝ)}
    (hP : getScheme g param = .ok P) (hf : chooseObjective c P c.inputDim rank objective = .ok f)
    (hc : checkOptions "slsqp" lipschitz usePool samples = .ok ()) (hb : P.bounds c.inputDim rank = .ok bounds)
    (hl : lipschitz.toInt.toNat ≠ 0) (ha : gatherSamples f P c.inputDim rank lipschitz.toInt.toNat samples.elems = .ok all)
    (hr : ∀ s ∈ all, ∃ r, sp.slsqp f s bounds maxiter = .ok r ∧ r.fun_ ≤ -10 ^ 10) :
    optimizeProcedure g sp c rank "slsqp" param objective lipschitz usePool maxiter samples = .error .unboundLocal := by
  have key : ∀ ss : List (List ℝ), (∀ s ∈ ss, ∃ r, sp.slsqp f s bounds maxiter = .ok r ∧ r.fun_ ≤ -10 ^ 10) →
      samplesLoop (fun s => sp.slsqp f s bounds maxiter) ss (.num (-10 ^ 10)) none = .error .unboundLocal := by
    intro ss
    induction ss with
    | nil => intro _; rw [samplesLoop]
    | cons s rest ih =>
      intro hs
      obtain ⟨r, hr1, hr2⟩ := hs s (by simp)
      rw [samplesLoop, hr1, ok_bind']
      simp only
      rw [if_neg (by simpa using hr2)]
      exact ih fun t ht => hs t (List.mem_cons_of_mem _ ht)
  unfold optimizeProcedure
  rw [hP, ok_bind', hf, ok_bind', hc, ok_bind', hb, ok_bind']
  simp only
  rw [ha, ok_bind']
  unfold runOptimizer
  rw [if_neg (by decide), if_pos rfl]
  unfold pyAssert
  rw [if_pos hl, ok_bind', if_neg (by simp [h0]), key all hr, error_bind', error_bind']

/-! ### C41 -/

/-- The values of `param` that the code accepts. -/
def Spec.KnownParam : ParamArg → Prop
  | .str s => s = "overparam" ∨ s = "cholesky"
  | .inst _ => True
  | _ => False

/-- A Python integer (or boolean) that is not negative. -/
def Spec.NonnegInt (x : PyNum) : Prop := x.isInt = true ∧ 0 ≤ x.toInt

theorem getScheme_ok_iff : (∃ P, getScheme g param = .ok P) ↔ Spec.KnownParam param := by
  cases param with
  | str s =>
    simp only [getScheme, Spec.KnownParam]
    constructor
    · rintro ⟨P, h⟩
      split_ifs at h with h1 h2
      · exact Or.inl h1
      · exact Or.inr h2
    · rintro (h | h)
      · exact ⟨_, if_pos h⟩
      · by_cases h1 : s = "overparam"
        · exact ⟨_, if_pos h1⟩
        · exact ⟨g.choleskyParam, by rw [if_neg h1, if_pos h]⟩
  | inst P => exact ⟨fun _ => trivial, fun _ => ⟨P, rfl⟩⟩
  | subclass P => exact ⟨fun ⟨_, h⟩ => (by cases h), fun h => h.elim⟩
  | other => exact ⟨fun ⟨_, h⟩ => (by cases h), fun h => h.elim⟩

/-- C41.  An unknown parameterisation raises `TypeError`, whatever the other options. -/
theorem C41_param (h : ¬ Spec.KnownParam param) :
    optimizeProcedure g sp c rank optimizer param objective lipschitz usePool maxiter samples = .error .type := by
  have hs : getScheme g param = .error .type := by
    cases param with
    | str s =>
      simp only [Spec.KnownParam, not_or] at h
      simp only [getScheme]
      rw [if_neg h.1, if_neg h.2]
    | inst P => exact absurd trivial h
    | subclass P => rfl
    | other => rfl
  unfold optimizeProcedure
  rw [hs]
  rfl

/-- The documentation of `optimize_coherent` says that a user's own parameterisation "must be a sub-class of
ParameterizationABC ... and provided in the 'param' attribute"; passing such a class always raises `TypeError`. -/
theorem C41_subclass_refuted (P : Scheme) :
    optimizeProcedure g sp c rank optimizer (.subclass P) objective lipschitz usePool maxiter samples =
      .error .type := C41_param fun h => h

theorem assertNonneg_ok_iff {x : PyNum} (h : x.isInt = true) : x.assertNonneg = .ok () ↔ 0 ≤ x.toInt := by
  cases x with
  | int i => simp only [PyNum.assertNonneg, PyNum.toInt]; split_ifs <;> simp_all
  | bool b => cases b <;> simp [PyNum.assertNonneg, PyNum.toInt]
  | float r => simp [PyNum.isInt] at h
  | other => simp [PyNum.isInt] at h

/-- C41.  The checks on `use_pool`, `samples` and `lipschitz` pass exactly for: a non-negative integer
`use_pool`, a list `samples` (or any empty sequence), a non-negative integer `lipschitz`, which is positive for
SLSQP without samples. -/
theorem checkOptions_ok_iff : checkOptions optimizer lipschitz usePool samples = .ok () ↔
    Spec.NonnegInt usePool ∧ (samples.elems = [] ∨ samples.isList = true) ∧ Spec.NonnegInt lipschitz ∧
      (samples.elems = [] → optimizer = "slsqp" → 0 < lipschitz.toInt) := by
  unfold checkOptions
  constructor
  · intro h
    obtain ⟨_, h1, h⟩ := bind_ok_iff.mp h
    obtain ⟨_, h2, h⟩ := bind_ok_iff.mp h
    have h1' : usePool.isInt = true := by
      by_contra hc
      simp [pyAssert, hc] at h1
    have h2' := (assertNonneg_ok_iff h1').mp h2
    have rest : ∀ {u : Unit}, (do
        lipschitz.assertNonneg
        pyAssert (lipschitz.isInt = true)
        if samples.elems.length = 0 ∧ optimizer = "slsqp" then pyAssert (lipschitz.toInt > 0)) =
          (.ok u : Except PyErr Unit) →
        Spec.NonnegInt lipschitz ∧ (samples.elems = [] → optimizer = "slsqp" → 0 < lipschitz.toInt) := by
      intro u h
      obtain ⟨_, h3, h⟩ := bind_ok_iff.mp h
      obtain ⟨_, h4, h⟩ := bind_ok_iff.mp h
      have h4' : lipschitz.isInt = true := by
        by_contra hc
        simp [pyAssert, hc] at h4
      refine ⟨⟨h4', (assertNonneg_ok_iff h4').mp h3⟩, fun hs ho => ?_⟩
      rw [if_pos ⟨by rw [hs]; rfl, ho⟩] at h
      by_contra hc
      simp only [pyAssert] at h
      rw [if_neg hc] at h
      cases h
    by_cases hs : samples.elems.length ≠ 0
    · simp only [if_pos hs] at h
      obtain ⟨_, h5, h⟩ := bind_ok_iff.mp h
      have h5' : samples.isList = true := by
        by_contra hc
        simp [pyAssert, hc] at h5
      obtain ⟨r1, r2⟩ := rest h
      exact ⟨⟨h1', h2'⟩, Or.inr h5', r1, r2⟩
    · simp only [if_neg hs] at h
      obtain ⟨r1, r2⟩ := rest h
      exact ⟨⟨h1', h2'⟩, Or.inl (by simpa using hs), r1, r2⟩
  · rintro ⟨⟨h1, h2⟩, h3, ⟨h4, h5⟩, h6⟩
    have e1 := (assertNonneg_ok_iff h1).mpr h2
    have e2 := (assertNonneg_ok_iff h4).mpr h5
    have e3 : (if samples.elems.length = 0 ∧ optimizer = "slsqp" then pyAssert (lipschitz.toInt > 0)
        else (pure () : Except PyErr Unit)) = .ok () := by
      split_ifs with hc1
      · rw [pyAssert, if_pos (h6 (by simpa using hc1.1) hc1.2)]
      · rfl
    have e4 : pyAssert (usePool.isInt = true) = .ok () := if_pos h1
    have e5 : pyAssert (lipschitz.isInt = true) = .ok () := if_pos h4
    rw [e4, e5, e1, e2]
    by_cases hs : samples.elems.length ≠ 0
    · have h3' : samples.isList = true := by
        rcases h3 with h3 | h3
        · rw [h3] at hs; exact absurd rfl hs
        · exact h3
      have e6 : pyAssert (samples.isList = true) = .ok () := if_pos h3'
      simp only [if_pos hs, e6]
      exact e3
    · simp only [if_neg hs]
      exact e3

/-- What the checks raise otherwise. -/
theorem checkOptions_error {e : PyErr} (h : checkOptions optimizer lipschitz usePool samples = .error e) :
    e = .assertion ∨ (e = .type ∧ lipschitz = .other) := by
  have hassert : ∀ (p : Prop) [Decidable p] {e}, pyAssert p = .error e → e = .assertion := by
    intro p _ e h
    unfold pyAssert at h
    split_ifs at h
    injection h with h
    exact h.symm
  have hnn : ∀ x : PyNum, x.assertNonneg = .error e → e = .assertion ∨ (e = .type ∧ x = .other) := by
    intro x hx
    cases x with
    | int i =>
      simp only [PyNum.assertNonneg] at hx
      split_ifs at hx
      injection hx with hx
      exact Or.inl hx.symm
    | bool b => cases hx
    | float r =>
      simp only [PyNum.assertNonneg] at hx
      split_ifs at hx
      injection hx with hx
      exact Or.inl hx.symm
    | other => injection hx with hx; exact Or.inr ⟨hx.symm, rfl⟩
  unfold checkOptions at h
  rcases h1 : pyAssert (usePool.isInt = true) with e' | u
  · rw [h1] at h; injection h with h; subst h; exact Or.inl (hassert _ h1)
  rw [h1] at h
  simp only [bind, Except.bind] at h
  rcases h2 : usePool.assertNonneg with e' | u
  · rw [h2] at h
    injection h with h
    subst h
    rcases hnn _ h2 with h' | ⟨-, h'⟩
    · exact Or.inl h'
    · rw [h'] at h1; cases h1
  rw [h2] at h
  simp only at h
  have rest : (do
      lipschitz.assertNonneg
      pyAssert (lipschitz.isInt = true)
      if samples.elems.length = 0 ∧ optimizer = "slsqp" then pyAssert (lipschitz.toInt > 0)) =
        (.error e : Except PyErr Unit) → e = .assertion ∨ (e = .type ∧ lipschitz = .other) := by
    intro h
    rcases h3 : lipschitz.assertNonneg with e' | u
    · rw [h3] at h; injection h with h; subst h; exact hnn _ h3
    rw [h3] at h
    simp only [bind, Except.bind] at h
    rcases h4 : pyAssert (lipschitz.isInt = true) with e' | u
    · rw [h4] at h; injection h with h; subst h; exact Or.inl (hassert _ h4)
    rw [h4] at h
    simp only at h
    split_ifs at h
    · exact Or.inl (hassert _ h)
    · cases h
  by_cases hs : samples.elems.length ≠ 0
  · simp only [if_pos hs] at h
    rcases h5 : pyAssert (samples.isList = true) with e' | u
    · rw [h5] at h; injection h with h; subst h; exact Or.inl (hassert _ h5)
    rw [h5] at h
    exact rest h
  · simp only [if_neg hs] at h
    exact rest h

/-- The combinations of options that the code accepts. -/
def Spec.GoodOptions (optimizer : String) (lipschitz usePool : PyNum) (samples : SamplesArg) : Prop :=
  Spec.NonnegInt usePool ∧ (samples.elems = [] ∨ samples.isList = true) ∧ Spec.NonnegInt lipschitz ∧
    (optimizer = "diffev" ∨ optimizer = "slsqp" ∧ lipschitz.toInt ≠ 0)

/-- C41.  A call that returns was made with a known parameterisation and a good combination of options. -/
theorem C41_necessary
    (h : optimizeProcedure g sp c rank optimizer param objective lipschitz usePool maxiter samples = .ok out) :
    Spec.KnownParam param ∧ Spec.GoodOptions optimizer lipschitz usePool samples ∧
      (objective = "coherent" ∨ objective = "fidelity") := by
  obtain ⟨P, f, bounds, all, r, val, x, hP, hf, hc, -, -, hr, -⟩ := optimizeProcedure_ok h
  obtain ⟨c1, c2, c3, c4⟩ := checkOptions_ok_iff.mp hc
  refine ⟨getScheme_ok_iff.mp ⟨P, hP⟩, ⟨c1, c2, c3, ?_⟩, ?_⟩
  · unfold runOptimizer at hr
    by_cases hd : optimizer = "diffev"
    · exact Or.inl hd
    · rw [if_neg hd] at hr
      by_cases hs : optimizer = "slsqp"
      · rw [if_pos hs] at hr
        obtain ⟨_, h1, -⟩ := bind_ok_iff.mp hr
        refine Or.inr ⟨hs, fun h0 => ?_⟩
        simp [pyAssert, h0] at h1
      · rw [if_neg hs] at hr; cases hr
  · unfold chooseObjective at hf
    split_ifs at hf with h1 h2
    · exact Or.inl h1
    · exact Or.inr h2

/-- C41.  With a known parameterisation, options that fail the checks raise `AssertionError` (`TypeError` if
`lipschitz` is not a number), before anything else happens. -/
theorem C41_checks (hP : Spec.KnownParam param) (ho : objective = "coherent" ∨ objective = "fidelity")
    (h : ¬ (Spec.NonnegInt usePool ∧ (samples.elems = [] ∨ samples.isList = true) ∧ Spec.NonnegInt lipschitz ∧
      (samples.elems = [] → optimizer = "slsqp" → 0 < lipschitz.toInt))) :
    optimizeProcedure g sp c rank optimizer param objective lipschitz usePool maxiter samples =
        .error .assertion ∨
      (lipschitz = .other ∧
        optimizeProcedure g sp c rank optimizer param objective lipschitz usePool maxiter samples =
          .error .type) := by
  obtain ⟨P, hP⟩ := (getScheme_ok_iff (g := g)).mpr hP
  have hf : ∃ f, chooseObjective c P c.inputDim rank objective = .ok f := by
    unfold chooseObjective
    rcases ho with rfl | rfl
    · exact ⟨_, if_pos rfl⟩
    · rw [if_neg (by decide), if_pos rfl]; exact ⟨_, rfl⟩
  obtain ⟨f, hf⟩ := hf
  rcases hc : checkOptions optimizer lipschitz usePool samples with e | u
  · have : optimizeProcedure g sp c rank optimizer param objective lipschitz usePool maxiter samples =
        .error e := by
      unfold optimizeProcedure
      rw [hP]
      simp only [bind, Except.bind]
      rw [hf]
      simp only
      rw [hc]
    rw [this]
    rcases checkOptions_error hc with rfl | ⟨rfl, h2⟩
    · exact Or.inl rfl
    · exact Or.inr ⟨h2, rfl⟩
  · exact absurd (checkOptions_ok_iff.mp hc) h

/-- The documentation lets the user give initial guesses in `samples` instead of using the Lipschitz sampler.
For SLSQP this always raises `AssertionError`: `lipschitz` may not be zero. -/
theorem C41_samples_refuted (h : lipschitz.toInt = 0) (hP : Spec.KnownParam param)
    (ho : objective = "coherent" ∨ objective = "fidelity") (hu : Spec.NonnegInt usePool)
    (hl : lipschitz.isInt = true) (hs : samples.isList = true) (hne : samples.elems ≠ [])
    (hb : ∀ P, getScheme g param = .ok P → ∃ b, P.bounds c.inputDim rank = .ok b) :
    optimizeProcedure g sp c rank "slsqp" param objective lipschitz usePool maxiter samples =
      .error .assertion := by
  obtain ⟨P, hP⟩ := (getScheme_ok_iff (g := g)).mpr hP
  have hf : ∃ f, chooseObjective c P c.inputDim rank objective = .ok f := by
    unfold chooseObjective
    rcases ho with rfl | rfl
    · exact ⟨_, if_pos rfl⟩
    · rw [if_neg (by decide), if_pos rfl]; exact ⟨_, rfl⟩
  obtain ⟨f, hf⟩ := hf
  obtain ⟨b, hb⟩ := hb P hP
  have hc : checkOptions "slsqp" lipschitz usePool samples = .ok () :=
    checkOptions_ok_iff.mpr ⟨hu, Or.inr hs, ⟨hl, by rw [h]⟩, fun hh => absurd hh hne⟩
  unfold optimizeProcedure
  rw [hP]
  simp only [bind, Except.bind]
  rw [hf]
  simp only
  rw [hc]
  simp only
  rw [hb]
  simp only
  rw [h]
  simp [gatherSamples, runOptimizer, pyAssert, pure, Except.pure, bind, Except.bind]

theorem poolSelect_some (results : List OptRes) (hne : results ≠ []) (h : ∀ r ∈ results, r.fun_ < 10 ^ 10) :
    ∃ r ∈ results, poolSelect results = ⟨r.fun_, some r.x, r.success⟩ := by
  rcases poolSelect_mem results with h0 | h0
  · exfalso
    have key : ∀ (l : List OptRes) (s : PoolState), s.x.isSome → (l.foldl poolStep s).x.isSome := by
      intro l
      induction l with
      | nil => intro s hs; exact hs
      | cons r l ih =>
        intro s hs
        rw [List.foldl_cons]
        apply ih
        unfold poolStep
        split_ifs
        · rfl
        · exact hs
    cases results with
    | nil => exact hne rfl
    | cons r l =>
      have h1 : poolStep ⟨-10 ^ 10, none, false⟩ r = ⟨r.fun_, some r.x, r.success⟩ := by
        rw [poolStep, if_pos]
        have := h r List.mem_cons_self
        simp only
        linarith
      have h2 := key l (poolStep ⟨-10 ^ 10, none, false⟩ r) (by rw [h1]; rfl)
      rw [poolSelect, List.foldl_cons] at h0
      rw [h0] at h2
      cases h2
  · exact h0

/-- C41.  The good combinations are accepted: when the parameterisation, the sampler and scipy do not fail, and
SLSQP is used with a pool, the call returns exactly for the good combinations of options. -/
theorem C41_accepted_iff {P : Scheme} {f : Objective} {bounds : List (ℝ × ℝ)}
    (hP : getScheme g param = .ok P) (hf : chooseObjective c P c.inputDim rank objective = .ok f)
    (hb : P.bounds c.inputDim rank = .ok bounds)
    (hlip : lipschitz.toInt.toNat ≠ 0 →
      ∃ vecs evals, initialGuesses f P c.inputDim rank lipschitz.toInt.toNat 1000 = .ok (vecs, evals, true))
    (hslsqp : ∀ x0, ∃ r, sp.slsqp f x0 bounds maxiter = .ok r ∧ r.fun_ < 10 ^ 10 ∧
      ∃ rho, P.rho r.x c.inputDim rank = .ok rho)
    (hdiff : ∀ i p, ∃ r, sp.diffev f bounds i p maxiter = .ok r ∧
      ∃ rho, P.rho r.x c.inputDim rank = .ok rho)
    (hpool : optimizer = "slsqp" → usePool.toInt ≠ 0) :
    (∃ out, optimizeProcedure g sp c rank optimizer param objective lipschitz usePool maxiter samples = .ok out) ↔
      Spec.GoodOptions optimizer lipschitz usePool samples := by
  constructor
  · rintro ⟨out, h⟩
    exact (C41_necessary h).2.1
  · rintro ⟨c1, c2, c3, c4⟩
    have hc : checkOptions optimizer lipschitz usePool samples = .ok () := by
      refine checkOptions_ok_iff.mpr ⟨c1, c2, c3, fun _ hs => ?_⟩
      rcases c4 with hd | ⟨-, h0⟩
      · rw [hd] at hs; exact absurd hs (by decide)
      · exact lt_of_le_of_ne c3.2 (Ne.symm h0)
    have hall : ∃ all, gatherSamples f P c.inputDim rank lipschitz.toInt.toNat samples.elems = .ok all ∧
        (lipschitz.toInt.toNat ≠ 0 → all ≠ []) := by
      unfold gatherSamples
      by_cases h0 : lipschitz.toInt.toNat ≠ 0
      · obtain ⟨vecs, evals, hg⟩ := hlip h0
        rw [if_pos h0, hg]
        refine ⟨samples.elems ++ vecs, rfl, fun _ hnil => ?_⟩
        obtain ⟨-, -, -, -, -, h1, -⟩ := C40_sampler hg
        rw [(List.append_eq_nil_iff.mp hnil).2] at h1
        simp at h1
      · rw [if_neg h0]
        exact ⟨samples.elems, rfl, fun hh => absurd hh h0⟩
    obtain ⟨all, hall, hne⟩ := hall
    have hr : ∃ v s x, runOptimizer sp f bounds optimizer lipschitz.toInt.toNat usePool.toInt maxiter all =
        .ok (.num v, s, some x) ∧ ∃ rho, P.rho x c.inputDim rank = .ok rho := by
      unfold runOptimizer
      by_cases hd : optimizer = "diffev"
      · rw [if_pos hd]
        obtain ⟨r, h1, h2⟩ := hdiff
          (if all.length ≠ 0 ∨ lipschitz.toInt.toNat ≠ 0 then (some all, all.length) else (none, 50)).1
          (if all.length ≠ 0 ∨ lipschitz.toInt.toNat ≠ 0 then (some all, all.length) else (none, 50)).2
        refine ⟨r.fun_, r.success, r.x, ?_, h2⟩
        simp only
        rw [h1]
        rfl
      · obtain ⟨hs, h0⟩ := c4.resolve_left hd
        have h0' : lipschitz.toInt.toNat ≠ 0 := by
          have := c3.2
          omega
        choose res hres using hslsqp
        rw [if_neg hd, if_pos hs]
        simp only [pyAssert, bind, Except.bind]
        rw [if_pos h0']
        simp only
        rw [if_pos (hpool hs), mapM_ok_of (g := res) fun s _ => (hres s).1]
        simp only
        obtain ⟨r, hr, hsel⟩ := poolSelect_some (all.map res) (by simpa using hne h0') (by
          intro r hr
          obtain ⟨s, -, rfl⟩ := List.mem_map.mp hr
          exact (hres s).2.1)
        obtain ⟨s, -, rfl⟩ := List.mem_map.mp hr
        exact ⟨(res s).fun_, (res s).success, (res s).x, by rw [hsel]; rfl, (hres s).2.2⟩
    obtain ⟨v, s, x, hr, rho, hrho⟩ := hr
    have hv : ∃ val, finalVal objective (.num v) = .ok val := by
      unfold finalVal
      split_ifs
      · exact ⟨_, rfl⟩
      · exact ⟨_, rfl⟩
    obtain ⟨val, hv⟩ := hv
    refine ⟨⟨rho, val, optimizer, decide (lipschitz.toInt.toNat ≠ 0), s, objective⟩, ?_⟩
    unfold optimizeProcedure
    rw [hP]
    simp only [bind, Except.bind]
    rw [hf]
    simp only
    rw [hc]
    simp only
    rw [hb]
    simp only
    rw [hall]
    simp only
    rw [hr]
    simp only
    rw [hv]
    simp only
    rw [hrho]
    rfl

/-- C41.  An optimizer other than `"diffev"` and `"slsqp"` raises `TypeError`, once the samples have been
gathered. -/
theorem C41_optimizer {P : Scheme} {f : Objective} {bounds : List (ℝ × ℝ)} {all : List (List ℝ)}
    (hP : getScheme g param = .ok P) (hf : chooseObjective c P c.inputDim rank objective = .ok f)
    (hb : P.bounds c.inputDim rank = .ok bounds) (hu : Spec.NonnegInt usePool)
    (hs : samples.elems = [] ∨ samples.isList = true) (hl : Spec.NonnegInt lipschitz)
    (hg : gatherSamples f P c.inputDim rank lipschitz.toInt.toNat samples.elems = .ok all)
    (h1 : optimizer ≠ "diffev") (h2 : optimizer ≠ "slsqp") :
    optimizeProcedure g sp c rank optimizer param objective lipschitz usePool maxiter samples = .error .type := by
  have hc : checkOptions optimizer lipschitz usePool samples = .ok () :=
    checkOptions_ok_iff.mpr ⟨hu, hs, hl, fun _ h => absurd h h2⟩
  unfold optimizeProcedure
  rw [hP]
  simp only [bind, Except.bind]
  rw [hf]
  simp only
  rw [hc]
  simp only
  rw [hb]
  simp only
  rw [hg]
  simp only [runOptimizer]
  rw [if_neg h1, if_neg h2]

/-- C39.  `positive_coherent_info_callback` on the value the minimiser sees, which is minus the coherent information, asks to stop
exactly when the coherent information is above `1e-8`; in particular never at a point where it is not positive. -/
theorem C39_callback (v : ℝ) : (positiveCallback (-v) ↔ (1 : ℝ) / 10 ^ 8 < v) ∧ (v ≤ 0 → ¬ positiveCallback (-v)) := by
  have h : positiveCallback (-v) ↔ (1 : ℝ) / 10 ^ 8 < v := neg_lt_neg_iff
  refine ⟨h, fun hv hc => ?_⟩
  have := h.mp hc
  norm_num at this
  linarith

example : positiveCallback (-1) ∧ ¬ positiveCallback 0 :=
  ⟨(C39_callback 1).1.mpr (by norm_num), by simpa using (C39_callback 0).2 le_rfl⟩

end PyQ
