import Verif.Model.Choi
import Verif.Model.Param

/-!
# Model of `PyQCodes/_optimize.py`, `PyQCodes/chan/_coherent.py` and the optimisers of `chan/channel.py`

scipy's `minimize` and `differential_evolution` and the random number generator are parameters.  Printing,
`disp` and the tuning constants handed to scipy (`eps`, `ftol`, `mutation`, ...) are left out.
`Pool.map` is modelled as the list of results in the order of the samples.
-/

namespace PyQ

noncomputable section

/-! ### Arguments and results -/

/-- A parameterisation of density matrices, the interface `ParameterizationABC`, param.py lines 53-73:
`bounds(nsize, rank)`, `rho_from_vec(vec, nsize, rank)` and the `t`-th call of `random_vectors(nsize, rank)`. -/
structure Scheme where
  bounds : ℕ → ℕ → Except PyErr (List (ℝ × ℝ))
  rho : List ℝ → ℕ → ℕ → Except PyErr (Arr ℂ)
  random : ℕ → ℕ → ℕ → Except PyErr (List ℝ)

/-- The random numbers drawn by the `t`-th call of `random_vectors`. (chan/param.py lines 251-254, 442-448) -/
structure Rng where
  normal : ℕ → ℕ → ℝ
  uniform : ℕ → ℝ → ℝ → ℕ → ℝ

/-- The class `OverParam`, with the default distribution of `random_vectors`, param.py line 227. -/
def Rng.overParam (g : Rng) : Scheme where
  bounds := fun nsize rank => .ok (OverParam.bounds nsize rank)
  rho := fun vec nsize rank => OverParam.rhoFromVec vec nsize (some rank)
  random := fun t nsize rank => OverParam.randomVectors (g.normal t) (g.uniform t (-1) 1) nsize rank .normal

/-- The class `CholeskyParam`, with its default arguments, param.py lines 411 and 460. -/
def Rng.choleskyParam (g : Rng) : Scheme where
  bounds := fun nsize rank => .ok (CholeskyParam.bounds nsize rank (-1) 1)
  rho := fun vec nsize rank => CholeskyParam.rhoFromVec vec nsize (some rank)
  random := fun t nsize rank =>
    CholeskyParam.randomVectors (fun _ _ => g.normal t) (g.uniform t) nsize rank .uniform (-1) 1

/-- The argument `param`: a string, an instance of `ParameterizationABC`, a subclass of it (as the
documentation asks for), or anything else. (chan/_coherent.py lines 63-75) -/
inductive ParamArg
  | str (s : String)
  | inst (P : Scheme)
  | subclass (P : Scheme)
  | other

/-- The arguments `lipschitz` and `use_pool`. (chan/_coherent.py lines 241-249) -/
inductive PyNum
  | int (i : ℤ)
  | bool (b : Bool)
  | float (x : ℝ)
  | other

/-- `isinstance(x, int)`. (chan/_coherent.py lines 241-249) -/
def PyNum.isInt : PyNum → Bool
  | .int _ => true
  | .bool _ => true
  | _ => false

/-- The number, for `PyNum.isInt`. (chan/_coherent.py lines 241-249) -/
def PyNum.toInt : PyNum → ℤ
  | .int i => i
  | .bool b => if b then 1 else 0
  | _ => 0

/-- `assert x >= 0.`; a `TypeError` for a value without order. (chan/_coherent.py lines 241-249) -/
def PyNum.assertNonneg : PyNum → Except PyErr Unit
  | .int i => if 0 ≤ i then .ok () else .error .assertion
  | .bool _ => .ok ()
  | .float x => if 0 ≤ x then .ok () else .error .assertion
  | .other => .error .type

/-- The argument `samples`: its elements, and whether it is a `list`. (chan/_coherent.py lines 243-244) -/
structure SamplesArg where
  isList : Bool
  elems : List (List ℝ)

/-- A scipy `OptimizeResult`. (chan/_coherent.py lines 94-98, 137-140, 179-181) -/
structure OptRes where
  fun_ : ℝ
  x : List ℝ
  success : Bool

/-- An objective function on vectors of parameters. (chan/_coherent.py lines 41-60) -/
abbrev Objective := List ℝ → Except PyErr ℝ

/-- scipy's `minimize(f, x0, method="slsqp", bounds, maxiter)` and
`differential_evolution(f, bounds, init, popsize, maxiter)`; `init = none` is `"latinhypercube"`.
(chan/_coherent.py lines 78-81, 144-182) -/
structure Scipy where
  slsqp : Objective → List ℝ → List (ℝ × ℝ) → ℕ → Except PyErr OptRes
  diffev : Objective → List (ℝ × ℝ) → Option (List (List ℝ)) → ℕ → ℕ → Except PyErr OptRes

/-- What scipy promises: the value it reports is the objective at the point it reports.
(chan/_coherent.py lines 78-81, 144-182) -/
def Scipy.Correct (sp : Scipy) : Prop :=
  (∀ f x0 b m r, sp.slsqp f x0 b m = .ok r → f r.x = .ok r.fun_) ∧
  ∀ f b i p m r, sp.diffev f b i p m = .ok r → f r.x = .ok r.fun_

/-- The entry `optimal_val`: a number, or a whole `OptimizeResult`. (chan/_coherent.py lines 134-141, 296-297) -/
inductive OptVal
  | num (v : ℝ)
  | res (r : OptRes)

/-- The dictionary returned by `optimize_procedure`. (chan/_coherent.py lines 299-304) -/
structure OptOutput where
  rho : Arr ℂ
  val : OptVal
  method : String
  lipschitz : Bool
  success : Bool
  objective : String

/-- What `optimize_procedure` uses of the channel: `input_dimension`, `coherent_information(rho, n)` and
`fidelity_two_states(rho, n)`. (chan/_coherent.py lines 41-52, 251-253) -/
structure ChanView where
  inputDim : ℕ
  coherent : Arr ℂ → Except PyErr ℝ
  fidelity : Arr ℂ → Except PyErr ℝ

/-! ### `PyQCodes/_optimize.py` -/

/-- `positive_coherent_info_callback(x_k, func_val, convergence)`, _optimize.py lines 38-42. -/
def positiveCallback (funcVal : ℝ) : Prop := funcVal < -(1 / 10 ^ 8)

/-- `np.sum(np.abs(a - b))` for arrays of the same shape. (_optimize.py line 87) -/
def sumAbsDiff (a b : Arr ℂ) : ℝ :=
  ∑ i ∈ Finset.range a.rows, ∑ j ∈ Finset.range a.cols, ‖a.get i j - b.get i j‖

/-- The lists `samples_vec`, `samples_rho`, `func_evals` (kept as one list of triples) and `f_max`.
(_optimize.py lines 76-82) -/
structure LipState where
  samples : List (List ℝ × Arr ℂ × ℝ)
  fMax : ℝ

/-- `bounds`, _optimize.py lines 87-88. -/
def lipBounds (s : LipState) (rho : Arr ℂ) : List ℝ :=
  s.samples.map fun p => p.2.2 + sumAbsDiff rho p.2.1

/-- `np.max` of a list that is not empty. (_optimize.py line 93) -/
def listMax : List ℝ → ℝ
  | [] => 0
  | x :: xs => xs.foldl max x

/-- The body of the `while` loop, _optimize.py lines 84-93; `t` is the number of the random draw.
`f_max <= np.min(bounds)` is written as a comparison with every bound. -/
def lipStep (f : Objective) (P : Scheme) (nsize rank t : ℕ) (s : LipState) : Except PyErr LipState := do
  let vec ← P.random t nsize rank
  let rho ← P.rho vec nsize rank
  if ∀ b ∈ lipBounds s rho, s.fMax ≤ b then
    let v ← f vec
    let samples := s.samples ++ [(vec, rho, -v)]
    return ⟨samples, listMax (samples.map fun p => p.2.2)⟩
  else return s

/-- The `while` loop, _optimize.py lines 83-94: `tries` is `numb_tries - counter`, `t` the number of the next
random draw. -/
def lipLoop (f : Objective) (P : Scheme) (nsize rank numbSamples : ℕ) :
    ℕ → ℕ → LipState → Except PyErr LipState
  | 0, _, s => .ok s
  | tries + 1, t, s =>
    if s.samples.length < numbSamples then do
      let s' ← lipStep f P nsize rank t s
      lipLoop f P nsize rank numbSamples tries (t + 1) s'
    else .ok s

/-- `initial_guesses_lipschitz(f, nsize, rank, param, chan, n, numb_samples, numb_tries)`, _optimize.py lines
49-98: the samples, the values and `success`. -/
def initialGuesses (f : Objective) (P : Scheme) (nsize rank numbSamples numbTries : ℕ) :
    Except PyErr (List (List ℝ) × List ℝ × Bool) := do
  let vec ← P.random 0 nsize rank
  let rho ← P.rho vec nsize rank
  let v ← f vec
  let s ← lipLoop f P nsize rank numbSamples numbTries 1 ⟨[(vec, rho, -v)], -v⟩
  return (s.samples.map (·.1), s.samples.map (·.2.2), decide (s.samples.length = numbSamples))

/-! ### `PyQCodes/chan/_coherent.py` -/

/-- `_objective_func_coherent` and `_objective_func_fidelity` chosen by `_choose_objective_func`,
chan/_coherent.py lines 41-60. -/
def chooseObjective (c : ChanView) (P : Scheme) (nsize rank : ℕ) (objective : String) :
    Except PyErr Objective :=
  if objective = "coherent" then
    .ok fun vec => do
      let rho ← P.rho vec nsize rank
      let v ← c.coherent rho
      return -v
  else if objective = "fidelity" then
    .ok fun vec => do
      let rho ← P.rho vec nsize 1
      c.fidelity rho
  else .error .type

/-- `_get_parameterization_scheme_density(param)`, chan/_coherent.py lines 63-75.  A class is not an
instance of `ParameterizationABC`. -/
def getScheme (g : Rng) : ParamArg → Except PyErr Scheme
  | .inst P => .ok P
  | .str s =>
    if s = "overparam" then .ok g.overParam
    else if s = "cholesky" then .ok g.choleskyParam
    else .error .type
  | .subclass _ => .error .type
  | .other => .error .type

/-- The variables of the loop over the results in `_use_multi_processes`. (chan/_coherent.py lines 91-93) -/
structure PoolState where
  maxima : ℝ
  x : Option (List ℝ)
  success : Bool

/-- The loop body, chan/_coherent.py lines 94-98. -/
def poolStep (s : PoolState) (r : OptRes) : PoolState :=
  if -r.fun_ > s.maxima then ⟨r.fun_, some r.x, r.success⟩ else s

/-- The loop over the results, chan/_coherent.py lines 90-99. -/
def poolSelect (results : List OptRes) : PoolState :=
  results.foldl poolStep ⟨-10 ^ 10, none, false⟩

/-- The loop of `_optimize_samples_slsqp`, chan/_coherent.py lines 134-141.  After the first improvement
`optimal_val` is an `OptimizeResult`, and comparing a float with it raises `TypeError`. -/
def samplesLoop (minimize : List ℝ → Except PyErr OptRes) :
    List (List ℝ) → OptVal → Option (Bool × List ℝ) → Except PyErr (OptVal × Bool × List ℝ)
  | [], _, none => .error .unboundLocal
  | [], v, some p => .ok (v, p.1, p.2)
  | s :: ss, v, p => do
    let r ← minimize s
    match v with
    | .res _ => .error .type
    | .num w =>
      if r.fun_ > w then samplesLoop minimize ss (.res r) (some (r.success, r.x))
      else samplesLoop minimize ss v p

/-- `optimal_val *= -1.`; an `OptimizeResult` cannot be multiplied. (chan/_coherent.py line 297) -/
def negate : OptVal → Except PyErr OptVal
  | .num v => .ok (.num (-v))
  | .res _ => .error .type

/-- chan/_coherent.py lines 296-297. -/
def finalVal (objective : String) (v : OptVal) : Except PyErr OptVal :=
  if objective = "coherent" then negate v else .ok v

/-- The checks on the options, chan/_coherent.py lines 241-249. -/
def checkOptions (optimizer : String) (lipschitz usePool : PyNum) (samples : SamplesArg) :
    Except PyErr Unit := do
  pyAssert (usePool.isInt = true)
  usePool.assertNonneg
  if samples.elems.length ≠ 0 then pyAssert (samples.isList = true)
  lipschitz.assertNonneg
  pyAssert (lipschitz.isInt = true)
  if samples.elems.length = 0 ∧ optimizer = "slsqp" then pyAssert (lipschitz.toInt > 0)

/-- The samples of the user and of the Lipschitz sampler, chan/_coherent.py lines 254-264. -/
def gatherSamples (f : Objective) (P : Scheme) (nsize rank : ℕ) (lipschitz : ℕ) (samples : List (List ℝ)) :
    Except PyErr (List (List ℝ)) := do
  if lipschitz ≠ 0 then
    let r ← initialGuesses f P nsize rank lipschitz 1000
    pyAssert (r.2.2 = true)
    return samples ++ r.1
  else return samples

/-- The choice of the optimiser, chan/_coherent.py lines 266-294: `optimal_val`, `success` and
`optimal_x_val`, which is `None` (`none`) if no result was selected. -/
def runOptimizer (sp : Scipy) (f : Objective) (bounds : List (ℝ × ℝ)) (optimizer : String) (lipschitz : ℕ)
    (usePool : ℤ) (maxiter : ℕ) (samples : List (List ℝ)) :
    Except PyErr (OptVal × Bool × Option (List ℝ)) := do
  if optimizer = "diffev" then
    let init := if samples.length ≠ 0 ∨ lipschitz ≠ 0 then (some samples, samples.length) else (none, 50)
    let r ← sp.diffev f bounds init.1 init.2 maxiter
    return (.num r.fun_, r.success, some r.x)
  else if optimizer = "slsqp" then
    pyAssert (lipschitz ≠ 0)
    if usePool ≠ 0 then
      let results ← samples.mapM fun s => sp.slsqp f s bounds maxiter
      let p := poolSelect results
      return (.num p.maxima, p.success, p.x)
    else
      let p ← samplesLoop (fun s => sp.slsqp f s bounds maxiter) samples (.num (-10 ^ 10)) none
      return (p.1, p.2.1, some p.2.2)
  else .error .type

/-- `optimize_procedure(channel, n, rank, optimizer, param, objective, lipschitz, use_pool, maxiter, samples)`,
chan/_coherent.py lines 185-304.  `rho_from_vec(None, ...)` raises `TypeError`. -/
def optimizeProcedure (g : Rng) (sp : Scipy) (c : ChanView) (rank : ℕ) (optimizer : String) (param : ParamArg)
    (objective : String) (lipschitz usePool : PyNum) (maxiter : ℕ) (samples : SamplesArg) :
    Except PyErr OptOutput := do
  let P ← getScheme g param
  let f ← chooseObjective c P c.inputDim rank objective
  checkOptions optimizer lipschitz usePool samples
  let bounds ← P.bounds c.inputDim rank
  let lip := lipschitz.toInt.toNat
  let all ← gatherSamples f P c.inputDim rank lip samples.elems
  let r ← runOptimizer sp f bounds optimizer lip usePool.toInt maxiter all
  let val ← finalVal objective r.1
  match r.2.2 with
  | none => .error .type
  | some x =>
    let rho ← P.rho x c.inputDim rank
    return ⟨rho, val, optimizer, decide (lip ≠ 0), r.2.1, objective⟩

/-! ### `AnalyticQChan` -/

/-- The end of `fidelity_two_states(rho, n)`, chan/channel.py lines 395-398; `out` is the output of the
channel. -/
def fidelityOf (sqrtm : Sqrtm) (rho out : Arr ℂ) : Except PyErr ℝ := do
  let s := sqrtm rho
  let p ← s.dot out
  let q ← p.dot s
  let m := sqrtm q
  let t : ℂ := ∑ i ∈ Finset.range (min m.rows m.cols), m.get i i
  pyAssert (|t.im| < 1 / 10 ^ 5)
  return t.re

/-- `result["optimal_val"] /= float(n)`, chan/channel.py line 656; for `n = 0` a `ZeroDivisionError`. -/
def divideVal (n : ℕ) (out : OptOutput) : Except PyErr OptOutput :=
  match out.val with
  | .num v => if n = 0 then .error .zeroDivision else .ok { out with val := .num (v / n) }
  | .res _ => .error .type

namespace QChan

/-- `fidelity_two_states(rho, n)` for Kraus operators, chan/channel.py lines 374-398. -/
def fidelityTwoStates (sqrtm : Sqrtm) (o : KrausObj) (rho : Arr ℂ) (n : ℕ) : Except PyErr ℝ × KrausObj :=
  match QChan.channel o rho n false with
  | (.error e, o') => (.error e, o')
  | (.ok out, o') => (fidelityOf sqrtm rho out, o')

/-- What the optimisers use of the channel object `o` at `n` uses.  The evaluations leave the object as it is
once `o.curN = n` (`QChan.view_state`), so every evaluation is made on the same object.
(chan/channel.py lines 572-720) -/
def view (eig : Eigvalsh) (sqrtm : Sqrtm) (o : KrausObj) (n : ℕ) : ChanView where
  inputDim := QChan.inputDimension o
  coherent := fun rho => (QChan.coherentInformation eig o rho n false).1
  fidelity := fun rho => (QChan.fidelityTwoStates sqrtm o rho n).1

/-- `optimize_coherent(n, rank, optimizer, param, lipschitz, use_pool, maxiter, samples, disp, regularized)`
for Kraus operators, chan/channel.py lines 572-657. -/
def optimizeCoherent (g : Rng) (sp : Scipy) (eig : Eigvalsh) (sqrtm : Sqrtm) (o : KrausObj) (n rank : ℕ)
    (optimizer : String) (param : ParamArg) (lipschitz usePool : PyNum) (maxiter : ℕ) (samples : SamplesArg)
    (regularized : Bool) : Except PyErr OptOutput × KrausObj :=
  match sync o n with
  | (.error e, o') => (.error e, o')
  | (.ok _, o') => (do
      let r ← optimizeProcedure g sp (view eig sqrtm o' n) rank optimizer param "coherent" lipschitz usePool
        maxiter samples
      if regularized then divideVal n r else return r, o')

/-- `optimize_fidelity(n, optimizer, param, lipschitz, use_pool, maxiter, samples)` for Kraus operators,
chan/channel.py lines 659-720. -/
def optimizeFidelity (g : Rng) (sp : Scipy) (eig : Eigvalsh) (sqrtm : Sqrtm) (o : KrausObj) (n : ℕ)
    (optimizer : String) (param : ParamArg) (lipschitz usePool : PyNum) (maxiter : ℕ) (samples : SamplesArg) :
    Except PyErr OptOutput × KrausObj :=
  match sync o n with
  | (.error e, o') => (.error e, o')
  | (.ok _, o') =>
    (optimizeProcedure g sp (view eig sqrtm o' n) 1 optimizer param "fidelity" lipschitz usePool maxiter samples,
      o')

end QChan

namespace ChoiQ

/-- `fidelity_two_states(rho, n)` for a Choi matrix, chan/channel.py lines 374-398. -/
def fidelityTwoStates (sqrtm : Sqrtm) (o : ChoiObj) (rho : Arr ℂ) (n : ℕ) : Except PyErr ℝ := do
  let out ← channel o rho n false
  fidelityOf sqrtm rho out

/-- What the optimisers use of a channel given by a Choi matrix. (chan/channel.py lines 572-720) -/
def view (eig : Eigvalsh) (sqrtm : Sqrtm) (o : ChoiObj) (n : ℕ) : ChanView where
  inputDim := o.inputDim
  coherent := fun rho => coherentInformation eig sqrtm o rho n false
  fidelity := fun rho => fidelityTwoStates sqrtm o rho n

/-- `optimize_coherent` for a Choi matrix, chan/channel.py lines 572-657; `_update_channel_tensored` asserts
`n == 1`, lines 367-368. -/
def optimizeCoherent (g : Rng) (sp : Scipy) (eig : Eigvalsh) (sqrtm : Sqrtm) (o : ChoiObj) (n rank : ℕ)
    (optimizer : String) (param : ParamArg) (lipschitz usePool : PyNum) (maxiter : ℕ) (samples : SamplesArg)
    (regularized : Bool) : Except PyErr OptOutput := do
  pyAssert (n = 1)
  let r ← optimizeProcedure g sp (view eig sqrtm o n) rank optimizer param "coherent" lipschitz usePool maxiter
    samples
  if regularized then divideVal n r else return r

/-- `optimize_fidelity` for a Choi matrix, chan/channel.py lines 659-720. -/
def optimizeFidelity (g : Rng) (sp : Scipy) (eig : Eigvalsh) (sqrtm : Sqrtm) (o : ChoiObj) (n : ℕ)
    (optimizer : String) (param : ParamArg) (lipschitz usePool : PyNum) (maxiter : ℕ) (samples : SamplesArg) :
    Except PyErr OptOutput := do
  pyAssert (n = 1)
  optimizeProcedure g sp (view eig sqrtm o n) 1 optimizer param "fidelity" lipschitz usePool maxiter samples

end ChoiQ

end

end PyQ
