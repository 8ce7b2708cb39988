import Verif.Spec.Channel
import Mathlib.Analysis.SpecialFunctions.Pow.Real
import Mathlib.LinearAlgebra.Matrix.Notation

/-!
# The channels of the documentation and the tests, in textbook form

`README.md` (bit flip), `PyQCodes/README.tex.md` (depolarizing) and `PyQCodes/chan/tests/test_channel.py` (erasure, dephrasure,
amplitude damping, bit flip, depolarizing).  Independent of the code.
-/

namespace PyQ.Spec

open Matrix

/-- The square root of a probability, as a complex number. -/
noncomputable def amp (p : ℝ) : ℂ := ((Real.sqrt p : ℝ) : ℂ)

/-- A bit flip with probability `p`. -/
noncomputable def bitFlip (p : ℝ) : Fin 2 → Matrix (Fin 2) (Fin 2) ℂ :=
  ![amp (1 - p) • !![1, 0; 0, 1], amp p • !![0, 1; 1, 0]]

/-- A phase flip with probability `p`. -/
noncomputable def phaseFlip (p : ℝ) : Fin 2 → Matrix (Fin 2) (Fin 2) ℂ :=
  ![amp (1 - p) • !![1, 0; 0, 1], amp p • !![1, 0; 0, -1]]

/-- Erasure with probability `q`: the third output level says that the qubit was lost. -/
noncomputable def erasure (q : ℝ) : Fin 3 → Matrix (Fin 3) (Fin 2) ℂ :=
  ![amp (1 - q) • !![1, 0; 0, 1; 0, 0], amp q • !![0, 0; 0, 0; 1, 0], amp q • !![0, 0; 0, 0; 0, 1]]

/-- Decay of the second level to the first with probability `g`. -/
noncomputable def damping (g : ℝ) : Fin 2 → Matrix (Fin 2) (Fin 2) ℂ :=
  ![!![1, 0; 0, amp (1 - g)], !![0, amp g; 0, 0]]

/-- A phase flip with probability `p`, then erasure with probability `q`. -/
noncomputable def dephrasure (p q : ℝ) : Fin 4 → Matrix (Fin 3) (Fin 2) ℂ :=
  ![amp ((1 - p) * (1 - q)) • !![1, 0; 0, 1; 0, 0], amp ((1 - q) * p) • !![1, 0; 0, -1; 0, 0],
    amp q • !![0, 0; 0, 0; 1, 0], amp q • !![0, 0; 0, 0; 0, 1]]

/-- One of the three Pauli errors with probability `p / 3` each. -/
noncomputable def depolarizing (p : ℝ) : Fin 4 → Matrix (Fin 2) (Fin 2) ℂ :=
  ![amp (1 - p) • !![1, 0; 0, 1], amp (p / 3) • !![0, 1; 1, 0], amp (p / 3) • !![0, -Complex.I; Complex.I, 0],
    amp (p / 3) • !![1, 0; 0, -1]]

end PyQ.Spec
