import Verif.Model.Optimize

/-!
# Model of the instances of the parameterisations of `chan/param.py`

`optimize_procedure` accepts, besides two strings, only *instances* of `ParameterizationABC`.  A method without
`@staticmethod` looked up on an instance receives the instance as its first argument; `random_vectors` of
`OverParam` is such a method.
-/

namespace PyQ

noncomputable section

/-- A positional argument of a call of `random_vectors`: the instance itself, or a number.
(param.py lines 227, 410-411) -/
inductive CallArg
  | self
  | num (n : ℕ)

/-- The arguments a function of a class body receives when it is called as `x.f(args)`: with `@staticmethod`, or
looked up on the class, `args`; otherwise the instance comes first. (param.py lines 227, 410-411) -/
def boundArgs (isStatic onInstance : Bool) (args : List CallArg) : List CallArg :=
  if !isStatic && onInstance then .self :: args else args

/-- A call of `OverParam.random_vectors` (parameters `nsize, rank, dist="normal"`) with positional arguments,
param.py lines 227-258.  A third argument is `dist`; it is compared with two strings before anything else
happens, and neither a number nor the instance is equal to a string.  An instance as `nsize` or `rank` cannot be
multiplied.  A wrong number of arguments is a `TypeError`. -/
def OverParam.randomCall (normal uniform : ℕ → ℝ) : List CallArg → Except PyErr (List ℝ)
  | [.num nsize, .num rank] => OverParam.randomVectors normal uniform nsize rank .normal
  | [.num nsize, .num rank, _] => OverParam.randomVectors normal uniform nsize rank .other
  | [_, .num rank, _] => OverParam.randomVectors normal uniform 0 rank .other
  | _ => .error .type

/-- A call of `CholeskyParam.random_vectors` with two positional arguments, param.py lines 410-452. -/
def CholeskyParam.randomCall (normal : ℕ → ℝ) (uniform : ℝ → ℝ → ℕ → ℝ) :
    List CallArg → Except PyErr (List ℝ)
  | [.num nsize, .num rank] =>
    CholeskyParam.randomVectors (fun _ _ => normal) uniform nsize rank .uniform (-1) 1
  | _ => .error .type

/-- `OverParam` as `optimize_procedure` uses it: the class (`onInstance = false`, chan/_coherent.py line 70) or
the object `OverParam()` (`onInstance = true`, line 68).  param.py line 227 has no decorator, lines 260, 266,
290 have `@staticmethod`. -/
def Rng.overParamAt (g : Rng) (onInstance : Bool) : Scheme where
  bounds := fun nsize rank => .ok (OverParam.bounds nsize rank)
  rho := fun vec nsize rank => OverParam.rhoFromVec vec nsize (some rank)
  random := fun t nsize rank =>
    OverParam.randomCall (g.normal t) (g.uniform t (-1) 1) (boundArgs false onInstance [.num nsize, .num rank])

/-- `CholeskyParam` as `optimize_procedure` uses it, chan/_coherent.py lines 68 and 72; all functions of the class have
`@staticmethod`, param.py lines 410, 454, 459, 494, 546. -/
def Rng.choleskyParamAt (g : Rng) (onInstance : Bool) : Scheme where
  bounds := fun nsize rank => .ok (CholeskyParam.bounds nsize rank (-1) 1)
  rho := fun vec nsize rank => CholeskyParam.rhoFromVec vec nsize (some rank)
  random := fun t nsize rank =>
    CholeskyParam.randomCall (g.normal t) (g.uniform t) (boundArgs true onInstance [.num nsize, .num rank])

/-- The object `StandardBasis()`, param.py lines 76-191: `bounds(d)` takes one argument and
`rho_from_vec(vec, nrows)` two, so that the calls with one argument more raise `TypeError`.  `random_vectors` is
the one of `ParameterizationABC`, lines 70-73, and returns `None`; here `TypeError`, as `rho_from_vec(None, nsize, rank)`
raises. -/
def standardBasisInst : Scheme where
  bounds := fun _ _ => .error .type
  rho := fun _ _ _ => .error .type
  random := fun _ _ _ => .error .type

end

end PyQ
