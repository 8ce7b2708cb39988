import Verif.Spec.Channel

/-!
# Choi matrices, in textbook form

Independent of the code.  The Choi matrix of `Φ` is `∑ |y><y'| ⊗ Φ(|y><y'|)`; its index `y * m + x` stands
for input `y` and output `x`.
-/

namespace PyQ.Spec

open Matrix

variable {n m : ℕ}

/-- The column-stacked vector of an operator. -/
def vec (K : Matrix (Fin m) (Fin n) ℂ) : Fin (n * m) → ℂ := fun i => K i.modNat i.divNat

/-- The Choi matrix `∑ vec K (vec K)†` of the channel with operators `K`. -/
def choi {ι : Type} [Fintype ι] (K : ι → Matrix (Fin m) (Fin n) ℂ) : Matrix (Fin (n * m)) (Fin (n * m)) ℂ :=
  ∑ k, vecMulVec (vec (K k)) (star (vec (K k)))

/-- The channel with Choi matrix `C`: `Φ(ρ) x x' = ∑ ρ y y' C (y, x) (y', x')`. -/
def choiChannel (C : Matrix (Fin (n * m)) (Fin (n * m)) ℂ) (ρ : Matrix (Fin n) (Fin n) ℂ) :
    Matrix (Fin m) (Fin m) ℂ :=
  fun x x' => ∑ y, ∑ y', ρ y y' * C (finProdFinEquiv (y, x)) (finProdFinEquiv (y', x'))

/-- The partial trace over the output. -/
def traceOutput (C : Matrix (Fin (n * m)) (Fin (n * m)) ℂ) : Matrix (Fin n) (Fin n) ℂ :=
  fun y y' => ∑ x, C (finProdFinEquiv (y, x)) (finProdFinEquiv (y', x))

end PyQ.Spec
