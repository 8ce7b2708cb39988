import Verif.Props.CircuitGuards
import Verif.Lemmas.Examples

/-! # C14: logical operators numbered ten and higher -/

namespace PyQ

open Spec

/-- **C14, names of two digits (refuted part)**.  A logical operator numbered 10 or higher cannot be applied: its name, the
letter followed by the decimal number, raises `AssertionError` whatever the number of logical qubits. -/
theorem C14_two_digits_refuted (c : StabCode) (len : ℕ) (p : Char) (i : ℕ) (hi : 10 ≤ i) :
    logicalCircuit c len (p :: (toString i).toList) = .error .assertion := by
  have hl : 2 ≤ (Nat.toDigits 10 i).length := by
    by_contra hlt
    have := (Nat.length_toDigits_le_iff (b := 10) (n := i) (k := 1) (by norm_num) (by norm_num)).mp (by omega)
    omega
  have hs : (toString i).toList = Nat.toDigits 10 i := by
    rw [Nat.toString_eq_ofList_toDigits, String.toList_ofList]
  rw [hs]
  match h : Nat.toDigits 10 i with
  | [] => rw [h] at hl; simp at hl
  | [a] => rw [h] at hl; simp at hl
  | a :: b :: t => rfl

/-- A code with eleven logical qubits: one generator X on the first of twelve qubits.  Its logical operator `X10` exists
as a row of the table and cannot be applied by name. -/
example : ∃ c, stabInit (.rows [[1, 0, 0, 0, 0, 0, 0, 0, 0, 0, 0, 0, 0, 0, 0, 0, 0, 0, 0, 0, 0, 0, 0, 0]]) 12 11 none = .ok c ∧
    BinaryArr c.stab ∧ Independent 12 c.stab ∧ 10 < c.logicalX.rows ∧
    logicalCircuit c 12 ['X', '1', '0'] = .error .assertion := by
  obtain ⟨c, h1, h2, h3, h4, h5, h6⟩ := concrete_code
    (l := [[1, 0, 0, 0, 0, 0, 0, 0, 0, 0, 0, 0, 0, 0, 0, 0, 0, 0, 0, 0, 0, 0, 0, 0]]) (n := 12) (k := 11)
    (r := 1) (e := 0) (by decide) (by decide) (by decide) (by unfold IsBinary; decide) (by decide)
    (independent_cert _ (fun j a => if j = 0 ∧ a = 0 then 1 else 0) (by decide))
    (fun F _ => rank_cert (M := Matrix.of fun (i : Fin 1) (j : Fin 12) =>
        (Arr.ofRows (2 * 12) [[1, 0, 0, 0, 0, 0, 0, 0, 0, 0, 0, 0, 0, 0, 0, 0, 0, 0, 0, 0, 0, 0, 0, 0]]).get i j)
      (fun _ _ => 1) (fun _ j => if j = 0 then 1 else 0) (fun _ _ => 1) (fun j _ => if j = 0 then 1 else 0)
      (by decide) (by decide) F)
    (Or.inl rfl)
  obtain ⟨-, -, -, hsh, hX, -, -⟩ := accepted_facts h1 h2 h3
  refine ⟨c, h1, h2, h3, ?_, ?_⟩
  · rw [hX, (lx_shape hsh).1]
    norm_num
  · exact C14_two_digits_refuted c 12 'X' 10 le_rfl

end PyQ
