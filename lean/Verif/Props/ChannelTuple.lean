import Verif.Props.Channel

/-! C82 for the documented form of `numb_qubits`: a tuple (inputs, outputs) with a Choi matrix. -/

namespace PyQ

/-- **C82 for a tuple**: a Choi channel built with the tuple `(a, b)` takes `a` particles and returns `b`. -/
theorem C82_tuple_choi {chk : QutipChecks} {d e : ℕ} {orth : List ℕ} {sp : Bool} {C : Arr ℂ} {a b : ℕ} {c : Chan}
    (h : Chan.init chk (.array2 false C) (.tuple a b) d e orth sp = .ok c) (calls : List QChan.Call) :
    C.cols = e ^ b * d ^ a ∧ (c.history calls).numbQubits = .ok (a, b) ∧
    (c.history calls).inputDimension = .ok (d ^ a) ∧ (c.history calls).outputDimension = .ok (e ^ b) := by
  obtain ⟨-, -, h1, h2, h3, -⟩ := C82_choi_partial h calls
  obtain ⟨x, y, rest, hq, hc, -⟩ := (C81_choi_partial C).mp ⟨c, h⟩
  simp only [Qubits.tuple, List.cons.injEq, Option.some.injEq] at hq
  obtain ⟨rfl, rfl, -⟩ := hq
  exact ⟨hc, h1, h2, h3⟩

/-- Concrete case: an accepted channel, with the example of `C81`. -/
example : ∃ c, Chan.init ⟨fun _ _ _ => true, fun _ _ _ => true⟩ (.array2 false ⟨8, 8, fun _ _ => 0⟩) (.tuple 1 2) 2 2 [] false = .ok c ∧
    (c.history []).inputDimension = .ok (2 ^ 1) ∧ (c.history []).outputDimension = .ok (2 ^ 2) := by
  obtain ⟨c, h⟩ := (C81_choi_partial (chk := ⟨fun _ _ _ => true, fun _ _ _ => true⟩) (q := .tuple 1 2) (d := 2) (e := 2) (orth := [])
    (sp := false) (⟨8, 8, fun _ _ => 0⟩ : Arr ℂ)).mpr ⟨1, 2, [], rfl, rfl, rfl, rfl⟩
  obtain ⟨-, -, h2, h3⟩ := C82_tuple_choi h []
  exact ⟨c, h, h2, h3⟩

end PyQ
