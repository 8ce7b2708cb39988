import Verif.Props.CodeDimension
import Verif.Props.AvgFid

/-!
# C72: what `encode_krauss_operators` returns when the first generator has an odd number of Y's

The matrix of such a generator is antisymmetric, and `np.linalg.eigh` reads its lower triangle as if it were symmetric.
-/

namespace PyQ

open Matrix Spec Module

variable {n : ℕ}

/-- The operator with the letters X and Y exchanged on qubit `q`. -/
def Spec.swapXY (q : Fin n) (p : Pauli n) : Pauli n := ⟨p.x, p.z + Pi.single q 1⟩

/-- Of two numbers whose binary digits agree before digit `q` and differ there, the smaller has digit zero. -/
theorem bit_of_lt {q : Fin n} {i j : ℕ} (hi : i < 2 ^ n) (hj : j < 2 ^ n) (hlt : j < i)
    (hpre : ∀ l < q, bitsOf n i l = bitsOf n j l) (hne : bitsOf n i q ≠ bitsOf n j q) : bitsOf n j q = 0 := by
  obtain ⟨q, hq⟩ := q
  set m := n - 1 - q with hm
  have hn : 2 ^ n = 2 ^ (m + 1) * 2 ^ q := by rw [← pow_add]; congr 1; omega
  have hd : ∀ a, a < 2 ^ n → a / 2 ^ (m + 1) < 2 ^ q := fun a ha => by
    rw [Nat.div_lt_iff_lt_mul (by positivity), mul_comm, ← hn]; exact ha
  have heq : i / 2 ^ (m + 1) = j / 2 ^ (m + 1) := by
    apply bitsOf_inj q (hd i hi) (hd j hj)
    funext l
    have := hpre ⟨l, by omega⟩ (by rw [Fin.lt_def]; exact l.2)
    unfold bitsOf at this ⊢
    rw [Nat.div_div_eq_div_mul, Nat.div_div_eq_div_mul, ← pow_add, show m + 1 + (q - 1 - l.val) = n - 1 - l.val by omega]
    exact this
  unfold bitsOf at hne ⊢
  simp only [← hm] at hne ⊢
  rw [pow_succ, ← Nat.div_div_eq_div_mul, ← Nat.div_div_eq_div_mul] at heq
  have hle : j / 2 ^ m ≤ i / 2 ^ m := Nat.div_le_div_right hlt.le
  rw [Ne, ZMod.natCast_eq_natCast_iff] at hne
  have hne' : i / 2 ^ m % 2 ≠ j / 2 ^ m % 2 := hne
  rw [ZMod.natCast_eq_zero_iff]
  omega

/-- The lower triangle of the matrix of an operator with an odd number of Y's is that of the operator with X and Y exchanged on
the first qubit where it has one of them. -/
theorem lowerHermitian_odd {S : Arr ℂ} {p : Pauli n} {q : Fin n} (hS : S.mat (2 ^ n) (2 ^ n) = pauliN p) (hY : parityY p = 1)
    (hq : p.x q = 1) (hpre : ∀ l < q, p.x l = 0) : (lowerHermitian S).mat (2 ^ n) (2 ^ n) = pauliN (swapXY q p) := by
  have hget : ∀ i j : Fin (2 ^ n), S.get i j = if bitsOf n i = bitsOf n j + p.x then sgn (dotp p.z (bitsOf n j)) else 0 :=
    fun i j => by rw [← pauliN_entry, ← hS]; rfl
  have hone : (1 : ZMod 2) ≠ 0 := by decide
  have hbit : ∀ i j : Fin (2 ^ n), j < i → bitsOf n i = bitsOf n j + p.x → bitsOf n j q = 0 := by
    intro i j hlt he
    apply bit_of_lt i.2 j.2 hlt
    · intro l hl
      rw [he, Pi.add_apply, hpre l hl, add_zero]
    · rw [he, Pi.add_apply, hq]
      intro h
      exact hone (by simpa using h)
  have hxx : ∀ b : Fin n → ZMod 2, b + p.x + p.x = b := fun b => by
    funext l
    simp only [Pi.add_apply]
    rw [add_assoc, add_self_z, add_zero]
  ext i j
  rw [pauliN_entry]
  simp only [Arr.mat_apply, lowerHermitian, hget, swapXY, dotp_add_left]
  have hsing : ∀ b : Fin n → ZMod 2, dotp (Pi.single q 1) b = b q := fun b => by rw [dotp_comm, dotp_single]
  rcases lt_trichotomy j i with hlt | rfl | hlt
  · rw [if_pos (Fin.lt_def.mp hlt)]
    by_cases he : bitsOf n i = bitsOf n j + p.x
    · rw [if_pos he, if_pos he, hsing, hbit i j hlt he, add_zero]
    · rw [if_neg he, if_neg he]
  · have he : ¬ bitsOf n j = bitsOf n j + p.x := by
      intro h
      have := congrFun h q
      rw [Pi.add_apply, hq] at this
      exact hone (by simpa using this)
    rw [if_neg (lt_irrefl _), if_pos rfl, if_neg he, if_neg he]
    simp
  · rw [if_neg (by have := Fin.lt_def.mp hlt; omega), if_neg (by have := Fin.lt_def.mp hlt; omega)]
    by_cases he : bitsOf n j = bitsOf n i + p.x
    · have he' : bitsOf n i = bitsOf n j + p.x := by rw [he, hxx]
      have h0 := hbit j i hlt he
      have h1 : bitsOf n j q = 1 := by rw [he, Pi.add_apply, h0, hq, zero_add]
      have h2 : dotp p.z p.x = 1 := hY
      rw [if_pos he, if_pos he', hsing, h1, he, dotp_add_right, h2, add_assoc, add_self_z, add_zero]
      rcases zmod2_cases (dotp p.z (bitsOf n i)) with e | e <;> rw [e] <;> simp
    · have he' : ¬ bitsOf n i = bitsOf n j + p.x := fun h => he (by rw [h, hxx])
      rw [if_neg he, if_neg he']
      simp

/-- The later passes of the loop stay in the span of the columns found first. -/
theorem encodeLoop_span {eigh : Eigh} (hE : eigh.Correct) (hL : eigh.ReadsLower) {N : ℕ} (rest : List (Arr ℂ)) :
    ∀ V : Arr ℂ, V.rows = N → (∀ S ∈ rest, S.rows = N ∧ S.cols = N) →
      ∃ V', rest.foldlM (encodeStep eigh) V = .ok V' ∧ V'.rows = N ∧
        ∃ W : Matrix (Fin V.cols) (Fin V'.cols) ℂ, V'.mat N V'.cols = V.mat N V.cols * W := by
  induction rest with
  | nil =>
    intro V h1 _
    exact ⟨V, rfl, h1, 1, by rw [Matrix.mul_one]⟩
  | cons S rest ih =>
    intro V h1 h2
    obtain ⟨s1, s2⟩ := h2 S (by simp)
    set C : Arr ℂ := V.conjT.mul (S.mul V) with hC
    have hH : ((lowerHermitian C).mat V.cols V.cols).IsHermitian := by
      ext i j
      rw [conjTranspose_apply]
      simp only [Arr.mat_apply, lowerHermitian]
      rcases lt_trichotomy (i : ℕ) j with h | h | h
      · rw [if_pos h, if_neg (by omega), if_neg (by omega)]
      · have : i = j := Fin.ext h
        subst this
        simp
      · rw [if_neg (by omega), if_neg (by omega), if_pos h]
        simp
    obtain ⟨e1, -⟩ := hE (lowerHermitian C) V.cols rfl rfl hH
    rw [← hL C] at e1
    set U := plusOneColumns (eigh C).1 (eigh C).2 with hU
    have hUr : U.rows = V.cols := e1
    obtain ⟨V', v1, v2, W, hW⟩ := ih (V.mul U) h1 fun T hT => h2 T (by simp [hT])
    refine ⟨V', ?_, v2, U.mat V.cols (V.mul U).cols * W, ?_⟩
    · rw [List.foldlM_cons]
      have hstep : encodeStep eigh V S = .ok (V.mul U) := by
        unfold encodeStep
        have d1 : S.dot V = .ok (S.mul V) := by unfold Arr.dot; rw [if_pos (s2.trans h1.symm)]
        have d2 : V.conjT.dot (S.mul V) = .ok C := by
          unfold Arr.dot; rw [if_pos (show V.conjT.cols = (S.mul V).rows from h1.trans s1.symm)]
        have d3 : V.dot U = .ok (V.mul U) := by unfold Arr.dot; rw [if_pos hUr.symm]
        simp only [d1, bind, Except.bind, d2]
        exact d3
      rw [hstep]
      exact v1
    · rw [hW, ← Matrix.mul_assoc]
      congr 1
      exact Arr.mat_mul _ _ N V.cols _ rfl

/-- **C72, an odd number of Y's in the first generator**.  For every accepted code whose first generator has an odd number of Y's,
whatever the others are, and every eigensolver that reads the lower triangle: all states in the span of the columns that
`encode_krauss_operators` returns are fixed by the first generator with X and Y exchanged on the first qubit where it has one
of them, so none of them but zero is an eigenvector of the generator.  If it is the only generator the columns are
orthonormal, there are `2^(n-1)` of them, and they span all states fixed by that other operator. -/
theorem C72_first_oddY (eigh : Eigh) (hE : eigh.Correct) (hL : eigh.ReadsLower) (s : StabInput) (n k : ℕ)
    (lo : Option (Arr ℤ × Arr ℤ)) (c : StabCode) (h : stabInit s n k lo = .ok c) (hn : 0 < n)
    (hb : BinaryArr c.stab) (hY : parityY (rowPauli n (c.stab.row 0)) = 1) :
    ∃ (q : Fin n) (V : Arr ℂ), (rowPauli n (c.stab.row 0)).x q = 1 ∧ (∀ l < q, (rowPauli n (c.stab.row 0)).x l = 0) ∧
      encodeKraus eigh c = .ok V ∧ V.rows = 2 ^ n ∧
      (∀ (x : Fin V.cols → ℂ) (ψ : Amp n), (∀ a : Fin (2 ^ n), ψ (bitsOf n a) = ∑ j : Fin V.cols, V.get a j * x j) →
        pauliAct (swapXY q (rowPauli n (c.stab.row 0))) ψ = ψ ∧
        (ψ ≠ 0 → ∀ t : ℂ, pauliAct (rowPauli n (c.stab.row 0)) ψ ≠ t • ψ)) ∧
      (c.stab.rows = 1 → V.cols * 2 = 2 ^ n ∧ (V.mat (2 ^ n) V.cols)ᴴ * V.mat (2 ^ n) V.cols = 1 ∧
        ∀ ψ : Amp n, pauliAct (swapXY q (rowPauli n (c.stab.row 0))) ψ = ψ →
          ∃ x : Fin V.cols → ℂ, ∀ a : Fin (2 ^ n), ψ (bitsOf n a) = ∑ j : Fin V.cols, V.get a j * x j) := by
  obtain ⟨hA, -, -⟩ := stabInit_ok h
  have hcols := initArray_cols hA
  have hr := initArray_rows_pos hA
  obtain ⟨Ms, hM1, hM2, hM3⟩ := code_matrices hn hcols hb
  set p := rowPauli n (c.stab.row 0) with hp
  obtain ⟨q, hq, hpre⟩ : ∃ q : Fin n, p.x q = 1 ∧ ∀ l < q, p.x l = 0 := by
    have hex : ∃ q : Fin n, p.x q = 1 := by
      by_contra hno
      have h0 : p.x = 0 := by
        funext l
        exact (zmod2_cases _).resolve_right fun e => hno ⟨l, e⟩
      have : dotp p.z p.x = 1 := hY
      rw [h0, dotp_zero_right] at this
      exact absurd this (by decide)
    classical
    have hne : (Finset.univ.filter fun q : Fin n => p.x q = 1).Nonempty := hex.imp fun q hq => by simpa using hq
    refine ⟨Finset.min' _ hne, ?_, ?_⟩
    · have := Finset.min'_mem _ hne
      simpa using this
    · intro l hl
      refine (zmod2_cases _).resolve_right fun e => ?_
      have := Finset.min'_le _ l (by simpa using e : l ∈ Finset.univ.filter fun q : Fin n => p.x q = 1)
      exact absurd hl (not_lt.mpr this)
  obtain ⟨S, rest, hMs⟩ : ∃ S rest, Ms = S :: rest := by
    cases Ms with
    | nil => simp at hM2; omega
    | cons S rest => exact ⟨S, rest, rfl⟩
  obtain ⟨s1, s2, s3⟩ := hM3 0 (by omega)
  have hS0 : Ms[0]'(by omega) = S := by simp [hMs]
  rw [hS0] at s1 s2 s3
  have hX := lowerHermitian_odd s3 hY hq hpre
  have hY' : parityY (swapXY q p) = 0 := by
    show dotp (p.z + Pi.single q 1) p.x = 0
    rw [dotp_add_left, dotp_comm (Pi.single q 1), dotp_single, hq, show dotp p.z p.x = 1 from hY]
    decide
  obtain ⟨m, p1, p2, p3, p4⟩ := plusOne_spec hE (lowerHermitian S) (2 ^ n) s1 s2 (by
    rw [hX]; exact pauliN_hermitian _ hY') (by rw [hX]; exact pauliN_sq _ hY')
  rw [← hL S] at p1 p2 p3 p4
  set V₁ := plusOneColumns (eigh S).1 (eigh S).2 with hV₁
  subst p2
  obtain ⟨V, v1, v2, W, hW⟩ := encodeLoop_span hE hL rest V₁ p1 (by
    intro T hT
    obtain ⟨i, hi, rfl⟩ := List.getElem_of_mem (show T ∈ Ms by rw [hMs]; simp [hT])
    exact ⟨(hM3 i hi).1, (hM3 i hi).2.1⟩)
  have hker : encodeKraus eigh c = .ok V := by
    unfold encodeKraus
    rw [hM1, hMs]
    exact v1
  have hPV : pauliN (swapXY q p) * V₁.mat (2 ^ n) V₁.cols = V₁.mat (2 ^ n) V₁.cols := by
    have e1 : V₁.mat (2 ^ n) V₁.cols = (1 / 2 : ℂ) • (1 + pauliN (swapXY q p)) * V₁.mat (2 ^ n) V₁.cols := by
      rw [← hX, ← p4, Matrix.mul_assoc, p3, Matrix.mul_one]
    have hsq : pauliN (swapXY q p) * pauliN (swapXY q p) = 1 := pauliN_sq _ hY'
    calc pauliN (swapXY q p) * V₁.mat (2 ^ n) V₁.cols
        = pauliN (swapXY q p) * ((1 / 2 : ℂ) • (1 + pauliN (swapXY q p)) * V₁.mat (2 ^ n) V₁.cols) := by rw [← e1]
      _ = (1 / 2 : ℂ) • (1 + pauliN (swapXY q p)) * V₁.mat (2 ^ n) V₁.cols := by
          rw [← Matrix.mul_assoc, Matrix.mul_smul, Matrix.mul_add, hsq, Matrix.mul_one, add_comm]
      _ = V₁.mat (2 ^ n) V₁.cols := e1.symm
  refine ⟨q, V, hq, hpre, hker, v2, ?_, ?_⟩
  · intro x ψ hψ
    have hφ : (fun a => ψ (bitsEquiv n a)) = V.mat (2 ^ n) V.cols *ᵥ x := funext hψ
    have hfix : pauliAct (swapXY q p) ψ = ψ := by
      have e1 := pauliN_mulVec (swapXY q p) ψ
      rw [hφ, hW, mulVec_mulVec, ← Matrix.mul_assoc, hPV, ← hW, ← hφ] at e1
      funext b
      have := congrFun e1 ((bitsEquiv n).symm b)
      simpa only [Equiv.apply_symm_apply] using this.symm
    refine ⟨hfix, fun hne t ht => hne ?_⟩
    have hanti : symp p (swapXY q p) = 1 := by
      show dotp p.x (p.z + Pi.single q 1) + dotp p.z p.x = 1
      rw [dotp_add_right, dotp_single, hq, dotp_comm p.x, add_right_comm, add_self_z, zero_add]
    have e1 := pauliAct_comm p (swapXY q p) ψ
    rw [hfix, hanti, sgn_one, ht, pauliAct_smul, hfix, neg_one_smul] at e1
    have h0 : pauliAct p ψ = 0 := by rw [ht]; exact self_eq_neg.mp e1
    have e2 := pauliAct_comp p p ψ
    rw [h0, show p.add p = ⟨0, 0⟩ by simp [Pauli.add, add_self_f], pauliAct_one] at e2
    have hz : pauliAct p (0 : Amp n) = 0 := by
      have := pauliAct_smul p 0 (0 : Amp n)
      simpa using this
    rw [hz] at e2
    rcases smul_eq_zero.mp e2.symm with e | e
    · rcases zmod2_cases (dotp p.z p.x) with e' | e' <;> rw [e'] at e <;> simp at e
    · exact e
  · intro hr1
    have hrest : rest = [] := by
      have : (S :: rest).length = 1 := by rw [← hMs, hM2, hr1]
      simpa using this
    subst hrest
    obtain rfl : V₁ = V := by
      have : (Except.ok V₁ : Except PyErr (Arr ℂ)) = .ok V := v1
      exact Except.ok.inj this
    refine ⟨?_, p3, ?_⟩
    · have htr := projProd_trace [pauliN (swapXY q p)] (by
        intro i hi
        simp only [List.length_singleton, Nat.lt_one_iff] at hi
        subst hi
        have hz : parityY (⟨0, Pi.single q 1⟩ : Pauli n) = 0 := dotp_zero_right _
        refine ⟨pauliN ⟨0, Pi.single q 1⟩, pauliN ⟨0, Pi.single q 1⟩, pauliN_sq _ hz, ?_, by simp⟩
        simp only [List.getElem_cons_zero]
        rw [pauliN_comm, show symp (⟨0, Pi.single q 1⟩ : Pauli n) (swapXY q p) = 1 from ?_, sgn_one, neg_one_smul]
        show dotp (0 : Fin n → ZMod 2) _ + dotp (Pi.single q 1) p.x = 1
        rw [dotp_comm, dotp_zero_right, dotp_comm, dotp_single, hq, zero_add])
      simp only [projProd, List.foldl_cons, List.foldl_nil, Matrix.one_mul, List.length_singleton, pow_one] at htr
      rw [← hX, ← p4, trace_mul_comm, p3, trace_one, Fintype.card_fin] at htr
      exact_mod_cast htr
    · intro ψ hfix
      refine ⟨(V₁.mat (2 ^ n) V₁.cols)ᴴ *ᵥ fun a => ψ (bitsEquiv n a), fun a => ?_⟩
      have e1 := pauliN_mulVec (swapXY q p) ψ
      rw [hfix] at e1
      have e2 : V₁.mat (2 ^ n) V₁.cols *ᵥ ((V₁.mat (2 ^ n) V₁.cols)ᴴ *ᵥ fun a => ψ (bitsEquiv n a)) = fun a => ψ (bitsEquiv n a) := by
        rw [mulVec_mulVec, p4, hX, smul_mulVec, add_mulVec, one_mulVec, e1, ← two_smul ℂ (fun a => ψ (bitsEquiv n a)), smul_smul]
        norm_num
      exact (congrFun e2 a).symm

/-- The hypotheses hold of the code of the single generator YI. -/
example : ∃ c, stabInit (.rows [[1, 0, 1, 0]]) 2 1 none = .ok c ∧ BinaryArr c.stab ∧ parityY (rowPauli 2 (c.stab.row 0)) = 1 ∧
    c.stab.rows = 1 := by
  obtain ⟨c, h1, h2, h3, h4, h5, h6, -⟩ := codeY
  exact ⟨c, h1, h2, by rw [h6]; decide, h5⟩

end PyQ
