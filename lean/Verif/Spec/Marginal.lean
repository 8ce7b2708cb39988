import Verif.Spec.Channel

/-!
# The state of one of several systems

Independent of the code.
-/

namespace PyQ.Spec

/-- The state of system `t` of `n` systems of dimension `a`, the partial trace over the others: entry `(x, x')` adds up the
entries of `ρ` whose row has the digit `x` and whose column has the digit `x'` at `t`, and whose other digits agree. -/
noncomputable def marginal {a n : ℕ} (ρ : Matrix (Fin (a ^ n)) (Fin (a ^ n)) ℂ) (t : Fin n) : Matrix (Fin a) (Fin a) ℂ :=
  fun x x' => ∑ i, ∑ j, if digit i t = x ∧ digit j t = x' ∧ ∀ s, s ≠ t → digit i s = digit j s then ρ i j else 0

end PyQ.Spec
