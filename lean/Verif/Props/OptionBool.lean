import Verif.Props.Optimize

/-! # C41: truth values as options -/

namespace PyQ

/-- **C41**.  `True` and `False` as `lipschitz` or `use_pool` are the numbers one and zero: the whole result is the same. -/
theorem C41_bool (g : Rng) (sp : Scipy) (c : ChanView) (rank : ℕ) (optimizer : String) (param : ParamArg) (objective : String)
    (maxiter : ℕ) (samples : SamplesArg) (x y : Bool) (lipschitz usePool : PyNum) :
    optimizeProcedure g sp c rank optimizer param objective (.bool x) usePool maxiter samples =
        optimizeProcedure g sp c rank optimizer param objective (.int (if x then 1 else 0)) usePool maxiter samples ∧
      optimizeProcedure g sp c rank optimizer param objective lipschitz (.bool y) maxiter samples =
        optimizeProcedure g sp c rank optimizer param objective lipschitz (.int (if y then 1 else 0)) maxiter samples := by
  have h1 : ∀ b : Bool, (PyNum.bool b).assertNonneg = (PyNum.int (if b then 1 else 0)).assertNonneg := by
    intro b
    cases b <;> rfl
  have h2 : ∀ b : Bool, (PyNum.bool b).isInt = (PyNum.int (if b then 1 else 0)).isInt := fun _ => rfl
  have h3 : ∀ b : Bool, (PyNum.bool b).toInt = (PyNum.int (if b then 1 else 0)).toInt := fun _ => rfl
  constructor <;> unfold optimizeProcedure checkOptions <;> rw [h1, h2, h3]

/-- `use_pool=True` starts a pool, so that `'slsqp'` reports a number instead of what C39 describes. -/
example (sp : Scipy) (f : Objective) (s : List ℝ) (r : OptRes) (h : sp.slsqp f s [] 50 = .ok r) :
    ∃ out, runOptimizer sp f [] "slsqp" (PyNum.toInt (.bool true)).toNat (PyNum.toInt (.bool true)) 50 [s] = .ok out ∧
      ∃ v, out.1 = .num v :=
  ⟨_, by simp [runOptimizer, PyNum.toInt, pyAssert, h]; rfl, _, rfl⟩

end PyQ
