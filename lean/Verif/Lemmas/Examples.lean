import Verif.Lemmas.Concrete

/-! Concrete codes, used for non-vacuity examples and counterexamples. -/

namespace PyQ

open Spec

/-- The `[[4,2]]` code with generators XXXX and ZZZZ. -/
theorem code422 : ∃ c, stabInit (.rows [[1, 1, 1, 1, 0, 0, 0, 0], [0, 0, 0, 0, 1, 1, 1, 1]]) 4 2 none = .ok c ∧
    BinaryArr c.stab ∧ Independent 4 c.stab ∧ c.rank = 1 ∧ c.stab.rows = 2 ∧
    c.stab.row 0 = [1, 1, 1, 1, 0, 0, 0, 0] ∧ c.stab.row 1 = [0, 0, 0, 0, 1, 1, 1, 1] ∧
    c.normalForm.rows = 2 ∧
    c.normalForm.row 0 = [1, 1, 1, 1, 0, 0, 0, 0] ∧ c.normalForm.row 1 = [0, 0, 0, 0, 1, 1, 1, 1] := by
  obtain ⟨c, h1, h2, h3, h4, h5, h6⟩ := concrete_code (l := [[1, 1, 1, 1, 0, 0, 0, 0], [0, 0, 0, 0, 1, 1, 1, 1]]) (n := 4) (k := 2)
    (r := 1) (e := 1) (by decide) (by decide) (by decide) (by unfold IsBinary; decide) (by decide)
    (independent_cert _ (fun j a => if j = 0 ∧ a = 0 ∨ j = 4 ∧ a = 1 then 1 else 0) (by decide))
    (fun F _ => rank_cert (M := Matrix.of fun (i : Fin 2) (j : Fin 4) =>
        (Arr.ofRows (2 * 4) [[1, 1, 1, 1, 0, 0, 0, 0], [0, 0, 0, 0, 1, 1, 1, 1]]).get i j)
      !![1; 0] !![1, 1, 1, 1] !![1, 0] !![1; 0; 0; 0] (by decide) (by decide) F)
    (Or.inr (rank_cert (M := Matrix.of fun (i : Fin 1) (j : Fin 3) =>
        ((firstBlock 4 1 (Arr.ofRows (2 * 4) [[1, 1, 1, 1, 0, 0, 0, 0], [0, 0, 0, 0, 1, 1, 1, 1]])).slice 1 2 (4 + 1) (2 * 4)).get i j)
      !![1] !![1, 1, 1] !![1] !![1; 0; 0] (by decide) (by decide) ℚ))
  rw [if_neg (by decide)] at h6
  refine ⟨c, h1, h2, h3, h5, ?_⟩
  rw [h4, h6]
  decide

/-- XZII and YYYY on four qubits. -/
theorem codeSign : ∃ c, stabInit (.rows [[1, 0, 0, 0, 0, 1, 0, 0], [1, 1, 1, 1, 1, 1, 1, 1]]) 4 2 none = .ok c ∧
    BinaryArr c.stab ∧ Independent 4 c.stab ∧ c.rank = 2 ∧ c.stab.rows = 2 ∧
    c.stab.row 0 = [1, 0, 0, 0, 0, 1, 0, 0] ∧ c.stab.row 1 = [1, 1, 1, 1, 1, 1, 1, 1] ∧
    c.normalForm.rows = 2 ∧
    c.normalForm.row 0 = [1, 0, 0, 0, 0, 1, 0, 0] ∧ c.normalForm.row 1 = [0, 1, 1, 1, 1, 0, 1, 1] := by
  obtain ⟨c, h1, h2, h3, h4, h5, h6⟩ := concrete_code (l := [[1, 0, 0, 0, 0, 1, 0, 0], [1, 1, 1, 1, 1, 1, 1, 1]]) (n := 4) (k := 2)
    (r := 2) (e := 0) (by decide) (by decide) (by decide) (by unfold IsBinary; decide) (by decide)
    (independent_cert _ (fun j a => if j = 0 ∧ a = 0 ∨ j = 1 ∧ a = 0 ∨ j = 1 ∧ a = 1 then 1 else 0) (by decide))
    (fun F _ => rank_cert (M := Matrix.of fun (i : Fin 2) (j : Fin 4) =>
        (Arr.ofRows (2 * 4) [[1, 0, 0, 0, 0, 1, 0, 0], [1, 1, 1, 1, 1, 1, 1, 1]]).get i j)
      !![1, 0; 1, 1] !![1, 0, 0, 0; 0, 1, 1, 1] !![1, 0; -1, 1] !![1, 0; 0, 1; 0, 0; 0, 0] (by decide) (by decide) F)
    (Or.inl rfl)
  rw [if_pos (by decide)] at h6
  refine ⟨c, h1, h2, h3, h5, ?_⟩
  rw [h4, h6]
  decide

/-- The single generator YI on two qubits. -/
theorem codeY : ∃ c, stabInit (.rows [[1, 0, 1, 0]]) 2 1 none = .ok c ∧
    BinaryArr c.stab ∧ Independent 2 c.stab ∧ c.rank = 1 ∧ c.stab.rows = 1 ∧
    c.stab.row 0 = [1, 0, 1, 0] ∧ c.normalForm.rows = 1 ∧ c.normalForm.row 0 = [1, 0, 1, 0] := by
  obtain ⟨c, h1, h2, h3, h4, h5, h6⟩ := concrete_code (l := [[1, 0, 1, 0]]) (n := 2) (k := 1)
    (r := 1) (e := 0) (by decide) (by decide) (by decide) (by unfold IsBinary; decide) (by decide)
    (independent_cert _ (fun j a => if j = 0 ∧ a = 0 then 1 else 0) (by decide))
    (fun F _ => rank_cert (M := Matrix.of fun (i : Fin 1) (j : Fin 2) => (Arr.ofRows (2 * 2) [[1, 0, 1, 0]]).get i j)
      !![1] !![1, 0] !![1] !![1; 0] (by decide) (by decide) F)
    (Or.inl rfl)
  rw [if_pos (by decide)] at h6
  refine ⟨c, h1, h2, h3, h5, ?_⟩
  rw [h4, h6]
  decide

end PyQ
