import Verif.Lemmas.CodeSpace
import Verif.Lemmas.Examples
import Verif.Lemmas.Except
import Verif.Spec.Circuit
import Verif.Props.Constructor

/-!
# C19, C20: the encoder isometry and the corrected Kraus operators
-/

namespace PyQ

open Matrix Spec

/-- The matrices of the generators. -/
theorem code_matrices {c : StabCode} {n : ℕ} (hn : 0 < n) (hc : c.stab.cols = 2 * n) (hb : BinaryArr c.stab) :
    ∃ Ms : List (Arr ℂ), binaryRepToPauliMat ℂ ((List.range c.stab.rows).map c.stab.row) = .ok Ms ∧
      Ms.length = c.stab.rows ∧ ∀ i (hi : i < Ms.length), Ms[i].rows = 2 ^ n ∧ Ms[i].cols = 2 ^ n ∧
        Ms[i].mat (2 ^ n) (2 ^ n) = pauliN (rowPauli n (c.stab.row i)) := by
  have key : ∀ i, i < c.stab.rows → ∃ A, rowToPauliMat ℂ (c.stab.row i) = .ok A ∧ A.rows = 2 ^ n ∧ A.cols = 2 ^ n ∧
      A.mat (2 ^ n) (2 ^ n) = pauliN (rowPauli n (c.stab.row i)) := by
    intro i hi
    refine rowToPauliMat_mat ℂ hn (by simp [Arr.row, hc]) ?_
    intro v hv
    simp only [Arr.row, List.mem_map, List.mem_range] at hv
    obtain ⟨j, hj, rfl⟩ := hv
    exact hb i hi j hj
  haveI : Nonempty (Arr ℂ) := ⟨Arr.zeros 0 0⟩
  choose! f hf using key
  refine ⟨(List.range c.stab.rows).map f, ?_, by simp, ?_⟩
  · unfold binaryRepToPauliMat
    rw [mapM_ok_iff, List.forall₂_map_left_iff, List.forall₂_map_right_iff, List.forall₂_same]
    intro i hi
    exact (hf i (List.mem_range.mp hi)).1
  · intro i hi
    simp only [List.length_map, List.length_range] at hi
    simp only [List.getElem_map, List.getElem_range]
    exact (hf i hi).2

/-- The loop of `encode_krauss_operators`. -/
theorem encodeLoop {eigh : Eigh} (hE : eigh.Correct) {N : ℕ} (rest : List (Arr ℂ)) :
    ∀ (done : List (Matrix (Fin N) (Fin N) ℂ)) (V : Arr ℂ) (m : ℕ), V.rows = N → V.cols = m →
      (V.mat N m)ᴴ * V.mat N m = 1 → V.mat N m * (V.mat N m)ᴴ = projProd done →
      (∀ S ∈ rest, S.rows = N ∧ S.cols = N ∧ (S.mat N N).IsHermitian ∧ S.mat N N * S.mat N N = 1) →
      (∀ S ∈ rest, ∀ T ∈ done ++ rest.map fun S => S.mat N N, S.mat N N * T = T * S.mat N N) →
      ∃ V' m', rest.foldlM (encodeStep eigh) V = .ok V' ∧ V'.rows = N ∧ V'.cols = m' ∧
        (V'.mat N m')ᴴ * V'.mat N m' = 1 ∧
        V'.mat N m' * (V'.mat N m')ᴴ = projProd (done ++ rest.map fun S => S.mat N N) := by
  induction rest with
  | nil =>
    intro done V m h1 h2 h3 h4 _ _
    exact ⟨V, m, rfl, h1, h2, h3, by simpa using h4⟩
  | cons S rest ih =>
    intro done V m h1 h2 h3 h4 h5 h6
    obtain ⟨s1, s2, s3, s4⟩ := h5 S (by simp)
    obtain ⟨V', m', v1, v2, v3, v4, v5⟩ := encodeStep_spec hE V S N m h1 h2 s1 s2 h3 s3 s4 (by
      rw [h4]
      exact (projProd_comm done _ fun T hT => h6 S (by simp) T (by simp [hT])).symm)
    obtain ⟨V'', m'', w⟩ := ih (done ++ [S.mat N N]) V' m' v2 v3 v4 (by rw [v5, h4, projProd_append])
      (fun T hT => h5 T (by simp [hT])) (fun T hT R hR => h6 T (by simp [hT]) R (by simpa using hR))
    refine ⟨V'', m'', ?_, w.2.1, w.2.2.1, w.2.2.2.1, by simpa using w.2.2.2.2⟩
    rw [List.foldlM_cons, v1]
    exact w.1

/-- **C19**.  For every accepted code whose generators have an even number of Y's, and every eigensolver:
`encode_krauss_operators` returns a matrix with orthonormal columns, whose column span is exactly the set of vectors fixed
by every generator; if the generators are independent it has `2^(n - number of generators)` columns. -/
theorem C19_encoder_isometry (eigh : Eigh) (hE : eigh.Correct) (s : StabInput) (n k : ℕ)
    (lo : Option (Arr ℤ × Arr ℤ)) (c : StabCode) (h : stabInit s n k lo = .ok c) (hn : 0 < n)
    (hb : BinaryArr c.stab) (hY : ∀ i < c.stab.rows, parityY (rowPauli n (c.stab.row i)) = 0) :
    ∃ V m, encodeKraus eigh c = .ok V ∧ V.rows = 2 ^ n ∧ V.cols = m ∧
      (V.mat (2 ^ n) m)ᴴ * V.mat (2 ^ n) m = 1 ∧
      (∀ ψ : Amp n, (∀ i < c.stab.rows, pauliAct (rowPauli n (c.stab.row i)) ψ = ψ) ↔
        ∃ x : Fin m → ℂ, ∀ a : Fin (2 ^ n), ψ (bitsOf n a) = ∑ j : Fin m, V.get a j * x j) ∧
      (Independent n c.stab → m * 2 ^ c.stab.rows = 2 ^ n) := by
  obtain ⟨hA, hcom, -⟩ := stabInit_ok h
  have hcols := initArray_cols hA
  have hr := initArray_rows_pos hA
  obtain ⟨Ms, hM1, hM2, hM3⟩ := code_matrices hn hcols hb
  set N := 2 ^ n with hN
  set Ps : List (Matrix (Fin N) (Fin N) ℂ) := Ms.map fun S => S.mat N N with hPs
  have hPsi : ∀ i (hi : i < Ps.length), Ps[i] = pauliN (rowPauli n (c.stab.row i)) := by
    intro i hi
    simp only [hPs, List.getElem_map]
    exact (hM3 i (by simpa [hPs] using hi)).2.2
  have hPlen : Ps.length = c.stab.rows := by rw [hPs, List.length_map, hM2]
  have hcommP : ∀ S ∈ Ps, ∀ T ∈ Ps, S * T = T * S := by
    intro S hS T hT
    obtain ⟨i, hi, rfl⟩ := List.getElem_of_mem hS
    obtain ⟨j, hj, rfl⟩ := List.getElem_of_mem hT
    rw [hPsi, hPsi, pauliN_comm]
    have := hcom i (hPlen ▸ hi) j (hPlen ▸ hj)
    rw [← rowPauli_row hcols, ← rowPauli_row hcols, sympV_vec] at this
    rw [this]
    simp [sgn]
  have hprop : ∀ S ∈ Ms, S.rows = N ∧ S.cols = N ∧ (S.mat N N).IsHermitian ∧ S.mat N N * S.mat N N = 1 := by
    intro S hS
    obtain ⟨i, hi, rfl⟩ := List.getElem_of_mem hS
    obtain ⟨m1, m2, m3⟩ := hM3 i hi
    refine ⟨m1, m2, ?_, ?_⟩
    · rw [m3]; exact pauliN_hermitian _ (hY i (hM2 ▸ hi))
    · rw [m3]; exact pauliN_sq _ (hY i (hM2 ▸ hi))
  have hmain : ∃ V m, encodeKraus eigh c = .ok V ∧ V.rows = N ∧ V.cols = m ∧ (V.mat N m)ᴴ * V.mat N m = 1 ∧
      V.mat N m * (V.mat N m)ᴴ = projProd Ps := by
    cases hMs : Ms with
    | nil => rw [hMs] at hM2; simp at hM2; omega
    | cons S rest =>
      obtain ⟨s1, s2, s3, s4⟩ := hprop S (by rw [hMs]; simp)
      obtain ⟨m, p1, p2, p3, p4⟩ := plusOne_spec hE S N s1 s2 s3 s4
      obtain ⟨V, m', v1, v2, v3, v4, v5⟩ := encodeLoop hE rest [S.mat N N] _ m p1 p2 p3 (by
          rw [p4]; simp [projProd]) (fun T hT => hprop T (by rw [hMs]; simp [hT])) (fun T hT R hR => by
          refine hcommP _ ?_ _ ?_
          · rw [hPs, hMs]; exact List.mem_map_of_mem (by simp [hT])
          · rw [hPs, hMs]; simpa using hR)
      refine ⟨V, m', ?_, v2, v3, v4, ?_⟩
      · unfold encodeKraus
        rw [hM1, hMs]
        exact v1
      · rw [v5, hPs, hMs]; rfl
  obtain ⟨V, m, v1, v2, v3, v4, v5⟩ := hmain
  refine ⟨V, m, v1, v2, v3, v4, ?_, ?_⟩
  · intro ψ
    -- the vector indexed by numbers
    set φ : Fin N → ℂ := fun a => ψ (bitsEquiv n a) with hφ
    have hact : ∀ i (hi : i < Ps.length), (pauliAct (rowPauli n (c.stab.row i)) ψ = ψ ↔ Ps[i] *ᵥ φ = φ) := by
      intro i hi
      rw [hPsi i hi]
      have : pauliN (rowPauli n (c.stab.row i)) *ᵥ φ = fun a => pauliAct (rowPauli n (c.stab.row i)) ψ (bitsEquiv n a) := by
        unfold pauliN pauliAct
        rw [submatrix_mulVec_equiv]
        have hφ' : φ ∘ (bitsEquiv n).symm = ψ := by
          funext b
          simp only [hφ, Function.comp_apply, Equiv.apply_symm_apply]
        rw [hφ']
        rfl
      rw [this]
      constructor
      · intro h; rw [h]
      · intro h
        funext b
        have := congrFun h ((bitsEquiv n).symm b)
        simpa only [hφ, Equiv.apply_symm_apply] using this
    have hrange : (∀ S ∈ Ps, S *ᵥ φ = φ) ↔ ∃ x : Fin m → ℂ, φ = V.mat N m *ᵥ x := by
      constructor
      · intro h
        refine ⟨(V.mat N m)ᴴ *ᵥ φ, ?_⟩
        rw [mulVec_mulVec, v5, projProd_mulVec Ps φ h]
      · rintro ⟨x, hx⟩ S hS
        have h1 : projProd Ps *ᵥ φ = φ := by
          rw [← v5, hx, mulVec_mulVec, Matrix.mul_assoc, v4, Matrix.mul_one]
        have h2 := projProd_fixed Ps (fun S hS => by
          rw [hPs, List.mem_map] at hS
          obtain ⟨A, hA, rfl⟩ := hS
          exact (hprop A hA).2.2.2) hcommP S hS
        calc S *ᵥ φ = S *ᵥ (projProd Ps *ᵥ φ) := by rw [h1]
          _ = φ := by rw [mulVec_mulVec, h2, h1]
    rw [show (∀ i < c.stab.rows, pauliAct (rowPauli n (c.stab.row i)) ψ = ψ) ↔ ∀ S ∈ Ps, S *ᵥ φ = φ from ?_, hrange]
    · constructor
      · rintro ⟨x, hx⟩
        exact ⟨x, fun a => congrFun hx a⟩
      · rintro ⟨x, hx⟩
        exact ⟨x, funext hx⟩
    · constructor
      · intro h S hS
        obtain ⟨i, hi, rfl⟩ := List.getElem_of_mem hS
        exact (hact i hi).mp (h i (hPlen ▸ hi))
      · intro h i hi
        exact (hact i (hPlen ▸ hi)).mpr (h _ (List.getElem_mem _))
  · intro hind
    have htr := projProd_trace Ps (by
      intro i hi
      obtain ⟨w, hw⟩ := exists_partner _ hind ⟨i, hPlen ▸ hi⟩
      have hsymp : ∀ j, (hj : j < c.stab.rows) → symp (ofVec w) (rowPauli n (c.stab.row j)) = if j = i then 1 else 0 := by
        intro j hj
        have := hw ⟨j, hj⟩
        simp only [Fin.mk.injEq] at this
        rw [← this, ← rowPauli_row hcols, ← sympV_vec]
        rfl
      refine ⟨pauliN (ofVec w), (pauliN (ofVec w))ᴴ, mul_eq_one_comm.mp (pauliN_unitary _), ?_, ?_⟩
      · rw [hPsi i hi, pauliN_comm, hsymp i (hPlen ▸ hi), if_pos rfl]
        simp [sgn]
      · intro j hj
        rw [hPsi j (by omega), pauliN_comm, hsymp j (by omega), if_neg (by omega)]
        simp [sgn])
    rw [← v5, trace_mul_comm, v4, trace_one, Fintype.card_fin, hPlen] at htr
    exact_mod_cast htr

/-- **C19**, the dimension: `2^k` columns for independent generators, when the logical operators are computed. -/
theorem C19_dimension (eigh : Eigh) (hE : eigh.Correct) (s : StabInput) (n k : ℕ) (c : StabCode)
    (h : stabInit s n k none = .ok c) (hn : 0 < n) (hb : BinaryArr c.stab)
    (hY : ∀ i < c.stab.rows, parityY (rowPauli n (c.stab.row i)) = 0)
    (hind : Independent n c.stab) : ∃ V, encodeKraus eigh c = .ok V ∧ V.rows = 2 ^ n ∧ V.cols = 2 ^ k := by
  obtain ⟨V, m, v1, v2, v3, -, -, v6⟩ := C19_encoder_isometry eigh hE s n k none c h hn hb hY
  refine ⟨V, v1, v2, ?_⟩
  obtain ⟨hA, -, -, hN, -⟩ := stabInit_ok h
  have hk : c.stab.rows + k = n := by
    have h1 := (C07_accepted_shape s n k c h hb hind).1.rows
    rw [← (standardNormalForm_equi (initArray_cols hA) hN).1.rows]
    exact h1
  have h4 := v6 hind
  rw [← hk, pow_add, mul_comm] at h4
  rw [v3]
  exact Nat.eq_of_mul_eq_mul_left (by positivity) h4

/-- The `[[4,2]]` code meets the hypotheses, and an eigensolver exists: its encoder has 16 rows and 4 columns. -/
example : ∃ eigh c V, stabInit (.rows [[1, 1, 1, 1, 0, 0, 0, 0], [0, 0, 0, 0, 1, 1, 1, 1]]) 4 2 none = .ok c ∧
    encodeKraus eigh c = .ok V ∧ V.rows = 16 ∧ V.cols = 4 := by
  obtain ⟨c, h1, h2, h3, -, h5, h6, h7, -⟩ := code422
  obtain ⟨eigh, hE⟩ := exists_eigh
  obtain ⟨V, v1, v2, v3⟩ := C19_dimension eigh hE _ 4 2 c h1 (by decide) h2 (by
    intro i hi
    rw [h5] at hi
    interval_cases i
    · rw [h6]; decide
    · rw [h7]; decide) h3
  exact ⟨eigh, c, V, h1, v1, v2, v3⟩

/-! ### C20 -/

namespace Spec

/-- The matrix of generator `i`: the tensor product of its letters, with `XZ` for Y, indexed by numbers. -/
noncomputable def generator (n : ℕ) (c : StabCode) (i : ℕ) : Matrix (Fin (2 ^ n)) (Fin (2 ^ n)) ℂ :=
  fun a b => pauliMatrix ℂ (rowPauli n (c.stab.row i)) (bitsOf n a) (bitsOf n b)

/-- `E G + G E` vanishes up to `1e-5`, entry by entry. -/
def NearlyAnti {N : ℕ} (G E : Matrix (Fin N) (Fin N) ℂ) : Prop := ∀ a b, ‖(E * G + G * E) a b‖ < 1 / 10 ^ 5

/-- What becomes of the error `E`: it is multiplied by the first generator that anticommutes with it, and stays if there is
none. -/
def CorrectedBy {N : ℕ} (r : ℕ) (G : ℕ → Matrix (Fin N) (Fin N) ℂ) (E K : Matrix (Fin N) (Fin N) ℂ) : Prop :=
  ((∀ i < r, ¬ NearlyAnti (G i) E) ∧ K = E) ∨
    ∃ i < r, NearlyAnti (G i) E ∧ (∀ j < i, ¬ NearlyAnti (G j) E) ∧ K = G i * E

end Spec

/-- The loop over the generators for one error. -/
theorem correctOne_spec {N : ℕ} (E : Arr ℂ) (h1 : E.rows = N) (h2 : E.cols = N) (Ms : List (Arr ℂ)) :
    ∀ (G : ℕ → Matrix (Fin N) (Fin N) ℂ), (∀ i (hi : i < Ms.length), Ms[i].rows = N ∧ Ms[i].cols = N ∧ Ms[i].mat N N = G i) →
      ∃ K, correctOne E Ms = .ok K ∧ K.rows = N ∧ K.cols = N ∧ CorrectedBy Ms.length G (E.mat N N) (K.mat N N) := by
  induction Ms with
  | nil =>
    intro G _
    exact ⟨E, rfl, h1, h2, Or.inl ⟨by simp, rfl⟩⟩
  | cons p ps ih =>
    intro G hG
    obtain ⟨p1, p2, p3⟩ := hG 0 (by simp)
    simp only [List.getElem_cons_zero] at p1 p2 p3
    have d1 : p.dot E = .ok (p.mul E) := by unfold Arr.dot; rw [if_pos (p2.trans h1.symm)]
    have d2 : E.dot p = .ok (E.mul p) := by unfold Arr.dot; rw [if_pos (h2.trans p1.symm)]
    have hanti : antiCommutes (E.mul p) (p.mul E) ↔ NearlyAnti (G 0) (E.mat N N) := by
      unfold antiCommutes NearlyAnti
      have e1 : (E.mul p).mat N N = E.mat N N * G 0 := by rw [Arr.mat_mul _ _ N N N h2, p3]
      have e2 : (p.mul E).mat N N = G 0 * E.mat N N := by rw [Arr.mat_mul _ _ N N N p2, p3]
      rw [← e1, ← e2, Arr.rows_mul, Arr.cols_mul, h1, p2]
      constructor
      · intro h a b
        exact h a a.2 b b.2
      · intro h i hi j hj
        exact h ⟨i, hi⟩ ⟨j, hj⟩
    by_cases h : antiCommutes (E.mul p) (p.mul E)
    · refine ⟨p.mul E, ?_, p1, h2, Or.inr ⟨0, by simp, hanti.mp h, by simp, ?_⟩⟩
      · unfold correctOne
        simp only [d1, d2, ok_bind']
        rw [if_pos h]
      · rw [Arr.mat_mul _ _ N N N p2, p3]
    · obtain ⟨K, k1, k2, k3, k4⟩ := ih (fun i => G (i + 1)) (by
        intro i hi
        exact hG (i + 1) (by simpa using hi))
      refine ⟨K, ?_, k2, k3, ?_⟩
      · unfold correctOne
        simp only [d1, d2, ok_bind']
        rw [if_neg h, k1]
      · rcases k4 with ⟨a1, a2⟩ | ⟨i, a1, a2, a3, a4⟩
        · refine Or.inl ⟨?_, a2⟩
          intro i hi
          cases i with
          | zero => exact fun h' => h (hanti.mpr h')
          | succ i => exact a1 i (by simpa using hi)
        · refine Or.inr ⟨i + 1, by simpa using a1, a2, ?_, a4⟩
          intro j hj
          cases j with
          | zero => exact fun h' => h (hanti.mpr h')
          | succ j => exact a3 j (by omega)

/-- **C20**.  For every accepted 0/1 code and every list of matrices of the right size, there is one operator per error, in
order: the error times the first generator that anticommutes with it, or the error itself; and the sum of `K†K` is that of
the errors. -/
theorem C20_corrected (s : StabInput) (n k : ℕ) (lo : Option (Arr ℤ × Arr ℤ)) (c : StabCode)
    (h : stabInit s n k lo = .ok c) (hn : 0 < n) (hb : BinaryArr c.stab) (errors : List (Arr ℂ))
    (hsh : ∀ e ∈ errors, e.rows = 2 ^ n ∧ e.cols = 2 ^ n) :
    ∃ out, krausCorrectingErrors c errors = .ok out ∧
      List.Forall₂ (fun E K => K.rows = 2 ^ n ∧ K.cols = 2 ^ n ∧
        CorrectedBy c.stab.rows (generator n c) (E.mat (2 ^ n) (2 ^ n)) (K.mat (2 ^ n) (2 ^ n))) errors out ∧
      (out.map fun K => (K.mat (2 ^ n) (2 ^ n))ᴴ * K.mat (2 ^ n) (2 ^ n)).sum =
        (errors.map fun E => (E.mat (2 ^ n) (2 ^ n))ᴴ * E.mat (2 ^ n) (2 ^ n)).sum := by
  obtain ⟨hA, -⟩ := stabInit_ok h
  obtain ⟨Ms, hM1, hM2, hM3⟩ := code_matrices hn (initArray_cols hA) hb
  have hone : ∀ E : Arr ℂ, E.rows = 2 ^ n → E.cols = 2 ^ n → ∃ K, correctOne E Ms = .ok K ∧ K.rows = 2 ^ n ∧
      K.cols = 2 ^ n ∧ CorrectedBy c.stab.rows (generator n c) (E.mat (2 ^ n) (2 ^ n)) (K.mat (2 ^ n) (2 ^ n)) := by
    intro E h1 h2
    obtain ⟨K, k⟩ := correctOne_spec E h1 h2 Ms (generator n c) hM3
    rw [hM2] at k
    exact ⟨K, k⟩
  have hlist : ∃ out, errors.mapM (fun e => correctOne e Ms) = .ok out ∧
      List.Forall₂ (fun E K => K.rows = 2 ^ n ∧ K.cols = 2 ^ n ∧
        CorrectedBy c.stab.rows (generator n c) (E.mat (2 ^ n) (2 ^ n)) (K.mat (2 ^ n) (2 ^ n))) errors out := by
    clear h hM1
    induction errors with
    | nil => exact ⟨[], rfl, .nil⟩
    | cons E es ih =>
      obtain ⟨out, o1, o2⟩ := ih fun e he => hsh e (by simp [he])
      obtain ⟨e1, e2⟩ := hsh E (by simp)
      obtain ⟨K, k1, k2⟩ := hone E e1 e2
      refine ⟨K :: out, ?_, .cons k2 o2⟩
      rw [mapM_cons_except, k1, o1]
      rfl
  obtain ⟨out, o1, o2⟩ := hlist
  refine ⟨out, ?_, o2, ?_⟩
  · unfold krausCorrectingErrors
    rw [hM1]
    exact o1
  · clear o1 hone hsh
    induction o2 with
    | nil => rfl
    | cons hK _ ih =>
      rw [List.map_cons, List.map_cons, List.sum_cons, List.sum_cons, ih]
      congr 1
      rcases hK.2.2 with ⟨-, h3⟩ | ⟨i, -, -, -, h3⟩
      · rw [h3]
      · rw [h3, conjTranspose_mul, Matrix.mul_assoc, ← Matrix.mul_assoc (generator n c i)ᴴ,
          show (generator n c i)ᴴ * generator n c i = 1 from pauliN_unitary _, Matrix.one_mul]

/-- **C20**, Pauli errors.  For a multiple of a Pauli matrix that is not tiny, the test of the code says exactly whether the
generator and the Pauli anticommute. -/
theorem C20_pauli_errors (n : ℕ) (c : StabCode) (i : ℕ) (q : Pauli n) (a : ℂ) (ha : 1 / 10 ^ 5 ≤ ‖a‖)
    (E : Matrix (Fin (2 ^ n)) (Fin (2 ^ n)) ℂ)
    (hE : ∀ x y, E x y = a * pauliMatrix ℂ q (bitsOf n x) (bitsOf n y)) :
    NearlyAnti (generator n c i) E ↔ symp (rowPauli n (c.stab.row i)) q = 1 := by
  have hE' : E = a • pauliN q := by
    ext x y
    exact hE x y
  have hG : generator n c i = pauliN (rowPauli n (c.stab.row i)) := rfl
  set p := rowPauli n (c.stab.row i) with hp
  have hsum : E * generator n c i + generator n c i * E = (a * (1 + sgn (symp p q))) • (pauliN q * pauliN p) := by
    rw [hE', hG, Matrix.smul_mul, Matrix.mul_smul, pauliN_comm p q, mul_add, mul_one, add_smul, smul_smul]
  unfold NearlyAnti
  rw [hsum]
  rcases zmod2_cases (symp p q) with h | h
  · rw [h]
    refine iff_of_false ?_ (by decide)
    intro hall
    -- the product is a signed permutation matrix, it has an entry of absolute value one
    have hent : pauliN q * pauliN p = (sgn (dotp q.z p.x) : ℂ) • pauliN (q.add p) := by
      unfold pauliN
      rw [submatrix_mul_equiv, pauliMatrix_mul]
      rfl
    set b := (0 : Fin n → ZMod 2)
    have := hall ((bitsEquiv n).symm (b + (q.add p).x)) ((bitsEquiv n).symm b)
    rw [hent, Matrix.smul_apply, Matrix.smul_apply] at this
    simp only [pauliN, submatrix_apply, Equiv.apply_symm_apply, pauliMatrix, if_true] at this
    have hs : ∀ t : ZMod 2, ‖(sgn t : ℂ)‖ = 1 := by
      intro t
      unfold sgn
      split_ifs <;> simp
    rw [smul_eq_mul, smul_eq_mul, norm_mul, norm_mul, norm_mul, hs, hs, show (1 + sgn (0 : ZMod 2) : ℂ) = 2 by
      unfold sgn; norm_num] at this
    norm_num at this ha
    linarith
  · rw [h]
    refine iff_of_true ?_ rfl
    intro x y
    rw [show (1 + sgn (1 : ZMod 2) : ℂ) = 0 by unfold sgn; norm_num]
    simp

/-- **C20**, error branch: `ValueError` as soon as one error has the wrong shape. -/
theorem C20_wrong_shape (s : StabInput) (n k : ℕ) (lo : Option (Arr ℤ × Arr ℤ)) (c : StabCode)
    (h : stabInit s n k lo = .ok c) (hn : 0 < n) (hb : BinaryArr c.stab) (errors : List (Arr ℂ))
    (hsh : ∃ e ∈ errors, e.rows ≠ 2 ^ n ∨ e.cols ≠ 2 ^ n) :
    krausCorrectingErrors c errors = .error .value := by
  obtain ⟨hA, -⟩ := stabInit_ok h
  obtain ⟨Ms, hM1, hM2, hM3⟩ := code_matrices hn (initArray_cols hA) hb
  have hr := initArray_rows_pos hA
  have hbad : ∀ e : Arr ℂ, (e.rows ≠ 2 ^ n ∨ e.cols ≠ 2 ^ n) → correctOne e Ms = .error .value := by
    intro e he
    cases Ms with
    | nil => simp at hM2; omega
    | cons p ps =>
      obtain ⟨p1, p2, -⟩ := hM3 0 (by simp)
      simp only [List.getElem_cons_zero] at p1 p2
      unfold correctOne Arr.dot
      by_cases h1 : e.rows = 2 ^ n
      · rw [if_pos (p2.trans h1.symm), if_neg (by rw [p1]; tauto)]
        rfl
      · rw [if_neg (by rw [p2]; exact fun h => h1 h.symm)]
        rfl
  unfold krausCorrectingErrors
  rw [hM1, ok_bind']
  clear h hM1
  induction errors with
  | nil => simp at hsh
  | cons E es ih =>
    rw [mapM_cons_except]
    by_cases hE : E.rows ≠ 2 ^ n ∨ E.cols ≠ 2 ^ n
    · rw [hbad E hE]
      rfl
    · push Not at hE
      obtain ⟨K, k1, -⟩ := correctOne_spec E hE.1 hE.2 Ms (generator n c) hM3
      rw [k1]
      have := ih (by
        obtain ⟨e, he, h'⟩ := hsh
        rcases List.mem_cons.mp he with rfl | he
        · exact absurd hE (by tauto)
        · exact ⟨e, he, h'⟩)
      rw [show (Except.ok K : Except PyErr (Arr ℂ)).bind (fun b => (es.mapM fun e => correctOne e Ms).bind fun bs =>
        .ok (b :: bs)) = (es.mapM fun e => correctOne e Ms).bind fun bs => .ok (K :: bs) from rfl, this]
      rfl

/-- A concrete case: the `[[4,2]]` code and the two errors Z on the first qubit (which anticommutes with XXXX) and the
identity. -/
example : ∃ c out, stabInit (.rows [[1, 1, 1, 1, 0, 0, 0, 0], [0, 0, 0, 0, 1, 1, 1, 1]]) 4 2 none = .ok c ∧
    krausCorrectingErrors c [⟨16, 16, fun i j => if i = j then if i < 8 then 1 else -1 else 0⟩, Arr.eye 16] = .ok out ∧
    out.length = 2 := by
  obtain ⟨c, h1, h2, -⟩ := code422
  obtain ⟨out, o1, o2, -⟩ := C20_corrected _ 4 2 none c h1 (by decide) h2
    [⟨16, 16, fun i j => if i = j then if i < 8 then 1 else -1 else 0⟩, Arr.eye 16] (by simp [Arr.eye])
  exact ⟨c, out, h1, o1, o2.length_eq.symm⟩

end PyQ
