import Verif.Lemmas.Decode

/-! # The decoding circuit on an encoded state with a Pauli error -/

namespace PyQ

open Spec

variable {n k : ℕ}

/-- The decoding circuit after a Pauli error on an encoded basis state. -/
theorem decoding_error {c : StabCode} (hn : c.n = n) (hk : c.k = k) (hsh : NormalShape n k c.rank c.normalForm)
    (hX : c.logicalX = logicalXOf n k c.rank c.normalForm) (hZ : c.logicalZ = logicalZOf n k c.rank c.normalForm)
    {len : ℕ} {add : Bool} (hla : (len = n ∧ add = true) ∨ (len = n + k ∧ add = false)) {gs : List Gate}
    (hgs : decodingCircuit c len add = .ok gs) (E : Pauli n) (u v : ℕ → ZMod 2)
    (hu : ∀ i < k, symp (rowPauli n (c.logicalZ.row i)) E = u i) (hv : ∀ i < k, symp (rowPauli n (c.logicalX.row i)) E = v i)
    (δ : ℕ → ZMod 2) :
    run gs (tensor (pauliAct E (codeword n k c.rank c.normalForm δ)) (ket 0)) =
      (sgn (∑ i ∈ Finset.range k, (δ i + u i) * v i) : ℂ) •
        tensor (pauliAct E (codeword n k c.rank c.normalForm fun j => if j < k then u j else δ j))
          (ket fun i : Fin k => δ i + u i) := by
  have hx := lx_shape hsh
  have hz := lz_shape hsh
  rw [← hX] at hx
  rw [← hZ] at hz
  have bx : ∀ i < k, IsBinary (c.logicalX.row i) := fun i hi => row_binary (by rw [hX]; exact lx_binary hsh) (by omega)
  have bz : ∀ i < k, IsBinary (c.logicalZ.row i) := fun i hi => row_binary (by rw [hZ]; exact lz_binary hsh) (by omega)
  have lx : ∀ i, (c.logicalX.row i).length = 2 * n := fun i => by rw [row_length]; omega
  have lz : ∀ i, (c.logicalZ.row i).length = 2 * n := fun i => by rw [row_length]; omega
  have hstr : ∀ i, ∃ s : List Char, i < k → binaryRepToPauliStr (c.logicalX.row i) = .ok s ∧ s.length = n ∧
      strPauli n s = rowPauli n (c.logicalX.row i) := by
    intro i
    by_cases hi : i < k
    · obtain ⟨s, h1, h2, h3⟩ := rowStr (lx i) (bx i hi)
      exact ⟨s, fun _ => ⟨h1, h2, h3⟩⟩
    · exact ⟨[], fun h => absurd h hi⟩
  choose str hstr using hstr
  have hbt : (if add then len else c.n) = n ∧ (if add then len + c.k else len) = n + k := by
    rcases hla with ⟨rfl, rfl⟩ | ⟨rfl, rfl⟩ <;> simp [hn, hk]
  have hlen : n ≤ len := by omega
  have hform : decodingCircuit c len add = .ok ((List.range k).flatMap (fun i => ((c.logicalZ.row i).drop n).zipIdx.flatMap (copyG (n + i))) ++
    (List.range k).flatMap (fun i => strG (some (n + i)) 0 (str i))) := by
    unfold decodingCircuit
    simp only
    rw [hbt.1, hbt.2, hk]
    rw [mapM_ok_of (g := fun i => ((c.logicalZ.row i).drop n).zipIdx.flatMap (copyG (n + i)))]
    · rw [ok_bind', mapM_ok_of (g := fun i => strG (some (n + i)) 0 (str i))]
      · rw [ok_bind', ← List.flatMap_def, ← List.flatMap_def]; rfl
      · intro i hi
        have hi := List.mem_range.mp hi
        obtain ⟨h1, h2, -⟩ := hstr i hi
        unfold uncomputeGates rowAt onWire
        rw [if_pos (by omega), ok_bind', if_pos (by omega), ok_bind', h1, ok_bind', pauliGates_ok (by omega)]
    · intro i hi
      have hi := List.mem_range.mp hi
      unfold copyGates rowAt
      rw [if_pos (by omega), ok_bind', hn]
      rw [mapM_ok_of (g := copyG (n + i))]
      · rw [ok_bind', ← List.flatMap_def]; rfl
      · rintro ⟨v, j⟩ hj
        have hj' := mem_zipIdx_lt hj
        have hj2 : j < n := by
          simp [lz] at hj'; omega
        unfold copyG
        by_cases hv : v = 1
        · simp only [hv, if_true]
          unfold onWire
          rw [if_pos (by omega), if_pos (by omega)]
          rfl
        · simp only [hv, if_false]
  rw [hgs] at hform
  cases hform
  rw [run_append]
  set φ := pauliAct E (codeword n k c.rank c.normalForm δ) with hφ
  have hsupp : ∀ t < k, ∀ b, φ b ≠ 0 → dotp (rowPauli n (c.logicalZ.row t)).z b = δ t + u t := by
    intro t ht b hb
    have hzx : (rowPauli n (c.logicalZ.row t)).x = 0 := by
      rw [hZ]
      funext j
      rw [rowPauli_x (lz_shape hsh).2, lz_x j.2]; rfl
    have h0 : codeword n k c.rank c.normalForm δ (b + E.x) ≠ 0 := by
      intro h0
      apply hb
      rw [hφ, pauliAct_apply, h0, mul_zero]
    have h1 := codeword_support hsh ht δ _ h0
    rw [← hZ, dotp_add_right] at h1
    have h2 := hu t ht
    unfold symp at h2
    rw [hzx, dotp_zero_left, zero_add] at h2
    rw [h2] at h1
    rw [← h1, add_assoc, add_self_z, add_zero]
  have h1 : ∀ t ≤ k, run ((List.range t).flatMap (fun i => ((c.logicalZ.row i).drop n).zipIdx.flatMap (copyG (n + i))))
      (tensor φ (ket (0 : Fin k → ZMod 2))) =
        tensor φ (ket fun i : Fin k => if i.val < t then δ i + u i else 0) := by
    intro t
    induction t with
    | zero => intro _; simp only [List.range_zero, List.flatMap_nil, run_nil]; rfl
    | succ t ih =>
      intro ht
      rw [List.range_succ, List.flatMap_append, run_append, ih (by omega), List.flatMap_cons, List.flatMap_nil,
        List.append_nil, run_copy_tensor (lz t) (bz t (by omega)) (t := δ t + u t) (hsupp t (by omega)) _ (by omega)]
      congr 2
      funext j
      rcases lt_trichotomy j.val t with h | h | h
      · rw [if_pos h, if_neg (by omega), if_pos (by omega), add_zero]
      · rw [if_neg (by omega), if_pos h, if_pos (by omega), zero_add, h]
      · rw [if_neg (by omega), if_neg (by omega), if_neg (by omega), add_zero]
  rw [h1 k le_rfl]
  have e : (fun i : Fin k => if i.val < k then δ i + u i else 0) = fun i : Fin k => δ i + u i := by
    funext i; rw [if_pos i.2]
  rw [e]
  have h2 : ∀ t ≤ k, run ((List.range t).flatMap (fun i => strG (some (n + i)) 0 (str i)))
      (tensor φ (ket fun i : Fin k => δ i + u i)) =
        (sgn (∑ i ∈ Finset.range t, (δ i + u i) * v i) : ℂ) •
          tensor (pauliAct E (codeword n k c.rank c.normalForm fun j => if j < t then u j else δ j))
            (ket fun i : Fin k => δ i + u i) := by
    intro t
    induction t with
    | zero => intro _; simp only [List.range_zero, List.flatMap_nil, run_nil, Nat.not_lt_zero, if_false, Finset.sum_range_zero, sgn_zero, one_smul, hφ]
    | succ t ih =>
      intro ht
      obtain ⟨-, s2, s3⟩ := hstr t (by omega)
      rw [List.range_succ, List.flatMap_append, run_append, ih (by omega), run_smul, List.flatMap_cons, List.flatMap_nil,
        List.append_nil, run_strG_zero _ _ (by omega), ctrlAct_tensor _ (by omega) _ _ (show t < k by omega), s3,
        pauliAct_comm, hv t (by omega), hX, lx_codeword hsh (by omega), Finset.sum_range_succ]
      · simp only [lt_irrefl, if_false]
        rcases zmod2_cases (δ t + u t) with e0 | e0
        · rw [e0, if_neg (by decide), zero_mul, add_zero]
          have e1 : δ t = u t := by
            calc δ t = δ t + (u t + u t) := by rw [add_self_z, add_zero]
              _ = u t := by rw [← add_assoc, e0, zero_add]
          have e2 : (fun j => if j < t then u j else δ j) = fun j => if j < t + 1 then u j else δ j := by
            funext j
            rcases lt_trichotomy j t with h | h | h
            · rw [if_pos h, if_pos (by omega)]
            · rw [h, if_neg (by omega), if_pos (by omega), e1]
            · rw [if_neg (by omega), if_neg (by omega)]
          rw [e2]
        · rw [e0, if_pos rfl, one_mul, sgn_add, tensor_smul_left, smul_smul]
          have e1 : δ t + 1 = u t := by
            rw [← e0, ← add_assoc, add_self_z, zero_add]
          have e2 : Function.update (fun j => if j < t then u j else δ j) t (δ t + 1) = fun j => if j < t + 1 then u j else δ j := by
            funext j
            rcases lt_trichotomy j t with h | h | h
            · rw [Function.update_of_ne (by omega), if_pos h, if_pos (by omega)]
            · rw [h, Function.update_self, if_pos (by omega), e1]
            · rw [Function.update_of_ne (by omega), if_neg (by omega), if_neg (by omega)]
          rw [e2]
      · intro q hq
        simp only [Option.mem_def, Option.some.injEq] at hq
        subst hq
        rw [List.getD_eq_default _ _ (by omega)]; rfl
  exact h2 k le_rfl

end PyQ
