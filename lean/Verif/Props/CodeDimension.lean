import Verif.Props.EndToEnd
import Verif.Lemmas.FixedSpace

/-!
# C72: the dimension of the code space; C63: exactly when the two encoders agree
-/

namespace PyQ

open Matrix Spec Module

/-- The generators of a code as a list of rows. -/
def genRows (c : StabCode) : List (List ℤ) := (List.range c.stab.rows).map c.stab.row

/-- The generators as Pauli operators. -/
def genPaulis (n : ℕ) (c : StabCode) : Fin c.stab.rows → Pauli n := fun i => rowPauli n (c.stab.row i)

/-- The operators with a fixed non-zero state in common fix exactly what an independent part of them fixes, so the
dimension is determined by the rank. -/
theorem fixed_rank {n m : ℕ} (ps : Fin m → Pauli n) (hcom : ∀ i j, symp (ps i) (ps j) = 0)
    (hY : ∀ i, parityY (ps i) = 0) (ψ₀ : Amp n) (h₀ : ψ₀ ≠ 0) (hfix : ∀ i, pauliAct (ps i) ψ₀ = ψ₀) :
    finrank ℂ (fixedSpace ps) * 2 ^ finrank (ZMod 2) (Submodule.span (ZMod 2) (Set.range fun i => (ps i).vec)) = 2 ^ n := by
  obtain ⟨κ, a, ha, hspan, hli⟩ := exists_linearIndependent' (ZMod 2) fun i => (ps i).vec
  haveI : Finite κ := Finite.of_injective a ha
  haveI := Fintype.ofFinite κ
  set e := Fintype.equivFin κ with he
  set qs : Fin (Fintype.card κ) → Pauli n := fun i => ps (a (e.symm i)) with hqs
  have hli' : LinearIndependent (ZMod 2) fun i => (qs i).vec := hli.comp e.symm e.symm.injective
  have h1 := fixed_finrank qs (fun i j => hcom _ _) (fun i => hY _) hli'
  have h2 : finrank (ZMod 2) (Submodule.span (ZMod 2) (Set.range fun i => (ps i).vec)) = Fintype.card κ := by
    rw [← hspan]
    exact finrank_span_eq_card hli
  have h3 : fixedSpace ps = fixedSpace qs := by
    apply le_antisymm
    · intro ψ hψ i
      exact hψ _
    · intro ψ hψ i
      have hmem : (ps i).vec ∈ Submodule.span (ZMod 2) (Set.range fun j => (qs j).vec) := by
        have e1 : Set.range (fun j => (qs j).vec) = Set.range ((fun i => (ps i).vec) ∘ a) := by
          ext v
          constructor
          · rintro ⟨j, rfl⟩; exact ⟨e.symm j, rfl⟩
          · rintro ⟨j, rfl⟩; exact ⟨e j, by simp [hqs]⟩
        rw [e1, hspan]
        exact Submodule.subset_span ⟨i, rfl⟩
      have hact : ∀ v ∈ Submodule.span (ZMod 2) (Set.range fun j => (qs j).vec), ∃ t : ZMod 2, ∀ ψ : Amp n,
          (∀ j, pauliAct (qs j) ψ = ψ) → pauliAct (ofVec v) ψ = (sgn t : ℂ) • ψ := by
        intro v hv
        induction hv using Submodule.span_induction with
        | zero => exact ⟨0, fun ψ _ => by rw [sgn_zero, one_smul]; exact pauliAct_one ψ⟩
        | add x y _ _ hx hy =>
          obtain ⟨s, hs⟩ := hx
          obtain ⟨t, ht⟩ := hy
          refine ⟨dotp (ofVec x).z (ofVec y).x + (t + s), fun ψ hψ => ?_⟩
          have hc := pauliAct_comp (ofVec x) (ofVec y) ψ
          rw [ht ψ hψ, pauliAct_smul, hs ψ hψ, smul_smul] at hc
          have hc2 := congrArg (fun φ => (sgn (dotp (ofVec x).z (ofVec y).x) : ℂ) • φ) hc
          simp only [smul_smul, ← sgn_add, CharTwo.add_self_eq_zero, sgn_zero, one_smul] at hc2
          exact hc2.symm
        | smul b x _ hx =>
          obtain ⟨s, hs⟩ := hx
          have hb : b = 0 ∨ b = 1 := by revert b; decide
          rcases hb with rfl | rfl
          · rw [zero_smul]
            exact ⟨0, fun ψ _ => by rw [sgn_zero, one_smul]; exact pauliAct_one ψ⟩
          · rw [one_smul]; exact ⟨s, hs⟩
        | mem x hx =>
          obtain ⟨j, rfl⟩ := hx
          exact ⟨0, fun ψ hψ => by rw [sgn_zero, one_smul]; exact hψ j⟩
      obtain ⟨t, ht⟩ := hact _ hmem
      rw [ofVec_vec] at ht
      have h4 := ht ψ₀ (fun j => hfix _)
      rw [hfix i] at h4
      have ht0 : t = 0 := by
        by_contra hne
        have : t = 1 := (by decide : ∀ t : ZMod 2, t ≠ 0 → t = 1) t hne
        rw [this, sgn_one, neg_one_smul] at h4
        exact h₀ (self_eq_neg.mp h4)
      have := ht ψ hψ
      rwa [ht0, sgn_zero, one_smul] at this
  rw [h2, h3]
  exact h1

/-- The number of columns of the encoder is the dimension of the space fixed by the generators. -/
theorem encode_finrank (eigh : Eigh) (hE : eigh.Correct) (s : StabInput) (n k : ℕ)
    (lo : Option (Arr ℤ × Arr ℤ)) (c : StabCode) (h : stabInit s n k lo = .ok c) (hn : 0 < n)
    (hb : BinaryArr c.stab) (hY : ∀ i < c.stab.rows, parityY (rowPauli n (c.stab.row i)) = 0) :
    ∃ V, encodeKraus eigh c = .ok V ∧ V.rows = 2 ^ n ∧ V.cols = finrank ℂ (fixedSpace (genPaulis n c)) := by
  obtain ⟨V, m, v1, v2, v3, v4, v5, -⟩ := C19_encoder_isometry eigh hE s n k lo c h hn hb hY
  refine ⟨V, v1, v2, ?_⟩
  set L : (Fin m → ℂ) →ₗ[ℂ] Amp n :=
    (LinearEquiv.funCongrLeft ℂ ℂ (bitsEquiv n).symm).toLinearMap ∘ₗ (V.mat (2 ^ n) m).mulVecLin with hL
  have hinj : Function.Injective L := by
    rw [hL, LinearMap.coe_comp]
    refine (LinearEquiv.injective _).comp ?_
    intro x y hxy
    have := congrArg (fun w => (V.mat (2 ^ n) m)ᴴ *ᵥ w) hxy
    simpa only [mulVecLin_apply, mulVec_mulVec, v4, one_mulVec] using this
  have hrange : LinearMap.range L = fixedSpace (genPaulis n c) := by
    ext ψ
    rw [LinearMap.mem_range, mem_fixedSpace]
    have : (∀ i : Fin c.stab.rows, pauliAct (genPaulis n c i) ψ = ψ) ↔
        ∀ i < c.stab.rows, pauliAct (rowPauli n (c.stab.row i)) ψ = ψ :=
      ⟨fun h i hi => h ⟨i, hi⟩, fun h i => h i i.2⟩
    rw [this, v5 ψ]
    constructor
    · rintro ⟨x, rfl⟩
      refine ⟨x, fun a => ?_⟩
      show (V.mat (2 ^ n) m *ᵥ x) ((bitsEquiv n).symm (bitsEquiv n a)) = _
      rw [Equiv.symm_apply_apply]
      rfl
    · rintro ⟨x, hx⟩
      refine ⟨x, ?_⟩
      funext b
      have := hx ((bitsEquiv n).symm b)
      rw [show bitsOf n ((bitsEquiv n).symm b) = b from (bitsEquiv n).apply_symm_apply b] at this
      rw [this]
      rfl
  rw [v3, ← hrange, LinearMap.finrank_range_of_inj hinj, finrank_fin_fun]

theorem genRows_span {n : ℕ} {c : StabCode} :
    Submodule.span (ZMod 2) (Set.range fun i => (genPaulis n c i).vec) = groupOf n (genRows c) := by
  unfold groupOf
  congr 1
  ext v
  simp only [genRows, genPaulis, Set.mem_range, List.mem_map, List.mem_range, Set.mem_setOf_eq]
  constructor
  · rintro ⟨i, rfl⟩
    exact ⟨_, ⟨i, i.2, rfl⟩, rfl⟩
  · rintro ⟨r, ⟨i, hi, rfl⟩, rfl⟩
    exact ⟨⟨i, hi⟩, rfl⟩

theorem gen_commute {s : StabInput} {n k : ℕ} {lo : Option (Arr ℤ × Arr ℤ)} {c : StabCode}
    (h : stabInit s n k lo = .ok c) (i j : Fin c.stab.rows) : symp (genPaulis n c i) (genPaulis n c j) = 0 := by
  obtain ⟨hA, hcom, -⟩ := stabInit_ok h
  have hcols := initArray_cols hA
  have := hcom i i.2 j j.2
  rw [← rowPauli_row hcols, ← rowPauli_row hcols, sympV_vec] at this
  exact this

/-- **C72, partial**.  For every accepted code whose generators have even numbers of Y's, independent or not: either no
state but zero is fixed by all generators and `encode_krauss_operators` returns no columns, or it returns
`2^(n - r)` columns, where `r` is the rank of the generators modulo two.  Missing for C72: `2^k` columns, which needs
independent generators (`C72_dependent_refuted`, `C72_empty_refuted`). -/
theorem C72_columns_partial (eigh : Eigh) (hE : eigh.Correct) (s : StabInput) (n k : ℕ)
    (lo : Option (Arr ℤ × Arr ℤ)) (c : StabCode) (h : stabInit s n k lo = .ok c) (hn : 0 < n)
    (hb : BinaryArr c.stab) (hY : ∀ i < c.stab.rows, parityY (rowPauli n (c.stab.row i)) = 0) :
    ∃ V, encodeKraus eigh c = .ok V ∧ V.rows = 2 ^ n ∧
      ((V.cols = 0 ∧ ∀ ψ : Amp n, (∀ g ∈ genRows c, pauliAct (rowPauli n g) ψ = ψ) → ψ = 0) ∨
        (∃ ψ : Amp n, ψ ≠ 0 ∧ ∀ g ∈ genRows c, pauliAct (rowPauli n g) ψ = ψ) ∧
          V.cols * 2 ^ finrank (ZMod 2) (groupOf n (genRows c)) = 2 ^ n) := by
  obtain ⟨V, v1, v2, v3⟩ := encode_finrank eigh hE s n k lo c h hn hb hY
  refine ⟨V, v1, v2, ?_⟩
  have hmem : ∀ ψ : Amp n, ψ ∈ fixedSpace (genPaulis n c) ↔ ∀ g ∈ genRows c, pauliAct (rowPauli n g) ψ = ψ := by
    intro ψ
    rw [mem_fixedSpace]
    simp only [genRows, List.mem_map, List.mem_range, genPaulis]
    constructor
    · rintro h g ⟨i, hi, rfl⟩; exact h ⟨i, hi⟩
    · intro h i; exact h _ ⟨i, i.2, rfl⟩
  by_cases hz : ∀ ψ : Amp n, (∀ g ∈ genRows c, pauliAct (rowPauli n g) ψ = ψ) → ψ = 0
  · left
    refine ⟨?_, hz⟩
    rw [v3, Submodule.finrank_eq_zero, Submodule.eq_bot_iff]
    intro ψ hψ
    exact hz ψ ((hmem ψ).mp hψ)
  · right
    push Not at hz
    obtain ⟨ψ₀, hf, h₀⟩ := hz
    refine ⟨⟨ψ₀, h₀, hf⟩, ?_⟩
    rw [v3, ← genRows_span]
    exact fixed_rank _ (gen_commute h) (fun i => hY i i.2) ψ₀ h₀ ((hmem ψ₀).mpr hf)

/-- **C63, exactly**.  For an accepted code with independent generators with even numbers of Y's, the columns of
`encode_krauss_operators` and the states of `encoding_circuit` span the same space if and only if every generator fixes
every state that `encoding_circuit` prepares. -/
theorem C63_encoders_agree_iff (eigh : Eigh) (hE : eigh.Correct) (s : StabInput) (n k : ℕ) (c : StabCode)
    (h : stabInit s n k none = .ok c) (hn : 0 < n) (hb : BinaryArr c.stab) (hind : Independent n c.stab)
    (hY : ∀ a < c.stab.rows, parityY (rowPauli n (c.stab.row a)) = 0) :
    ∃ (V : Arr ℂ) (enc : (Fin k → ZMod 2) → List Gate), encodeKraus eigh c = .ok V ∧ V.rows = 2 ^ n ∧ V.cols = 2 ^ k ∧
      (∀ δ, encodingCircuit c n (bitsList δ) = .ok (enc δ)) ∧
      ((∀ ψ : Amp n, (∃ x : Fin (2 ^ k) → ℂ, ∀ a : Fin (2 ^ n), ψ (bitsOf n a) = ∑ j : Fin (2 ^ k), V.get a j * x j) ↔
        ∃ α : (Fin k → ZMod 2) → ℂ, ψ = ∑ δ, α δ • run (enc δ) (ket 0)) ↔
      ∀ δ, ∀ a < c.stab.rows, pauliAct (rowPauli n (c.stab.row a)) (run (enc δ) (ket 0)) = run (enc δ) (ket 0)) := by
  obtain ⟨V, m, v1, v2, v3, -, v5, -⟩ := C19_encoder_isometry eigh hE s n k none c h hn hb hY
  obtain ⟨V', w1, -, w3⟩ := C19_dimension eigh hE s n k c h hn hb hY hind
  rw [v1] at w1
  cases w1
  rw [w3] at v3
  subst v3
  obtain ⟨enc, e1, e2⟩ := C60_encoded_span s n k c h hb hind hY
  refine ⟨V, enc, v1, v2, w3, e1, ?_⟩
  have hencE : ∀ δ, ∃ α : (Fin k → ZMod 2) → ℂ, run (enc δ) (ket 0 : Amp n) = ∑ δ', α δ' • run (enc δ') (ket 0) := by
    intro δ
    refine ⟨fun δ' => if δ' = δ then 1 else 0, ?_⟩
    simp
  constructor
  · intro hsame δ
    exact (v5 _).mpr ((hsame _).mpr (hencE δ))
  · intro hfix
    set F := fixedSpace (genPaulis n c) with hF
    set E : Submodule ℂ (Amp n) := Submodule.span ℂ (Set.range fun δ => run (enc δ) (ket 0 : Amp n)) with hEd
    have hEmem : ∀ ψ : Amp n, ψ ∈ E ↔ ∃ α : (Fin k → ZMod 2) → ℂ, ψ = ∑ δ, α δ • run (enc δ) (ket 0) := by
      intro ψ
      rw [hEd, Submodule.mem_span_range_iff_exists_fun]
      exact ⟨fun ⟨α, hα⟩ => ⟨α, hα.symm⟩, fun ⟨α, hα⟩ => ⟨α, hα.symm⟩⟩
    have hle : E ≤ F := by
      rw [hEd, Submodule.span_le]
      rintro _ ⟨δ, rfl⟩
      exact fun i => hfix δ i i.2
    have hli : LinearIndependent ℂ fun δ => run (enc δ) (ket 0 : Amp n) := by
      rw [Fintype.linearIndependent_iff]
      intro g hg
      have := (e2 0).2 g 0 hg.symm (by simp)
      intro i; rw [this]; rfl
    have hdE : finrank ℂ E = 2 ^ k := by
      rw [hEd, finrank_span_eq_card hli]
      simp [ZMod.card]
    have hdF : finrank ℂ F = 2 ^ k := by
      obtain ⟨V', u1, -, u3⟩ := encode_finrank eigh hE s n k none c h hn hb hY
      rw [v1] at u1
      cases u1
      rw [hF, ← u3, w3]
    have heq : E = F := Submodule.eq_of_le_of_finrank_eq hle (by rw [hdE, hdF])
    intro ψ
    rw [← v5 ψ, ← hEmem, heq, hF, mem_fixedSpace]
    exact ⟨fun h i => h i i.2, fun h i hi => h ⟨i, hi⟩⟩

/-! ### Witnesses -/

/-- Acceptance of a concrete list of rows that need not be independent. -/
theorem concrete_accept {l : List (List ℤ)} {n k r e : ℕ} (hne : l ≠ []) (hl : ∀ r ∈ l, r.length = 2 * n)
    (hk : l.length + k = n) (hb : ∀ r ∈ l, IsBinary r)
    (hcom : ∀ p ∈ l, ∀ q ∈ l, symp (rowPauli n p) (rowPauli n q) = 0)
    (hr : xRankQ n (Arr.ofRows (2 * n) l) = r) (hrl : r ≠ l.length)
    (he : npRank ((firstBlock n r (Arr.ofRows (2 * n) l)).slice r l.length (n + r) (2 * n)) = e)
    (hid : topLeftIdentity (secondBlockLoops n k r e (firstBlock n r (Arr.ofRows (2 * n) l))) r) :
    ∃ c, stabInit (.rows l) n k none = .ok c ∧ BinaryArr c.stab ∧ c.stab = Arr.ofRows (2 * n) l := by
  have hA := initArray_rows_ok (n := n) (k := k) hne hl hk
  have hbA : BinaryArr (Arr.ofRows (2 * n) l) := ofRows_binary hb
  have hc := initArray_cols hA
  have hcomA : Commuting n (Arr.ofRows (2 * n) l) := by
    intro i hi j hj
    have hi' : i < l.length := hi
    have hj' : j < l.length := hj
    rw [rowVec_ofRows, rowVec_ofRows, List.getD_eq_getElem _ _ hi', List.getD_eq_getElem _ _ hj']
    exact hcom _ (List.getElem_mem hi') _ (List.getElem_mem hj')
  obtain ⟨strs, hS⟩ := pauliStab_ok hc hbA
  have hpos : 0 < l.length := List.length_pos_iff.mpr hne
  have hrn : r ≤ l.length := by rw [← hr]; exact xRankQ_le_rows (n := n) (Arr.ofRows (2 * n) l)
  obtain ⟨nf, hN⟩ := standardNormalForm_ok (n := n) (A := Arr.ofRows (2 * n) l) rfl hpos hk
  obtain ⟨eq, -⟩ := standardNormalForm_equi hc hN
  have hrun : stabInit (.rows l) n k none = (logicalOperators n k (xRankQ n (Arr.ofRows (2 * n) l)) nf).bind fun l' =>
      .ok ⟨n, k, Arr.ofRows (2 * n) l, strs, nf, xRankQ n (Arr.ofRows (2 * n) l), l'.1, l'.2⟩ := by
    unfold stabInit
    simp only [hA, ok_bind', isStabilizerCode_eq hc, pyAssert, hcomA, decide_true, if_true, hS, hN]
    rfl
  have heq := equi_firstBlock (n := n) (rank := r) (Arr.ofRows (2 * n) l) (by rw [← hr]; exact xRankQ_le_n _)
      (by rw [← hr]; exact xRankQ_le_rows _)
  have hrows : (firstBlock n r (Arr.ofRows (2 * n) l)).rows = l.length := heq.rows
  have hcols : (firstBlock n r (Arr.ofRows (2 * n) l)).cols = 2 * n := heq.cols
  have hnf : nf = secondBlockLoops n k r e (firstBlock n r (Arr.ofRows (2 * n) l)) := by
    unfold standardNormalForm at hN
    rw [matrixRank_ok (A := (Arr.ofRows (2 * n) l).slice 0 (Arr.ofRows (2 * n) l).rows 0 n) (show 0 < l.length - 0 by omega)
      (show 0 < n - 0 by omega)] at hN
    simp only [npRank_x, hr, ok_bind'] at hN
    unfold secondBlock at hN
    rw [if_neg (by rw [hrows]; exact hrl)] at hN
    rw [hrows, hcols, matrixRank_ok (A := (firstBlock n r (Arr.ofRows (2 * n) l)).slice r l.length (n + r) (2 * n))
      (show 0 < l.length - r by omega) (show 0 < 2 * n - (n + r) by omega)] at hN
    simp only [ok_bind', he] at hN
    rw [if_neg (by omega)] at hN
    simp only [ok_bind', pure_ok', Except.ok.injEq, Prod.mk.injEq] at hN
    exact hN.1.symm
  have her : nf.rows = l.length := eq.rows
  rw [hrun]
  unfold logicalOperators pyAssert
  rw [if_pos (by rw [hr, hnf]; exact hid)]
  simp only [ok_bind']
  rw [if_neg (by omega)]
  exact ⟨_, rfl, hbA, rfl⟩

/-- **C72 refuted (repeated generator)**.  `StabilizerCode(["ZZ", "ZZ"], 2, 0)` is accepted, and its encoder has two columns
instead of one. -/
theorem C72_dependent_refuted (eigh : Eigh) (hE : eigh.Correct) :
    ∃ c V, stabInit (.rows [[0, 0, 1, 1], [0, 0, 1, 1]]) 2 0 none = .ok c ∧ encodeKraus eigh c = .ok V ∧ V.cols = 2 := by
  obtain ⟨c, h1, h2, h3⟩ := concrete_accept (l := [[0, 0, 1, 1], [0, 0, 1, 1]]) (n := 2) (k := 0) (r := 0) (e := 1)
    (by decide) (by decide) (by decide) (by unfold IsBinary; decide) (by decide)
    (rank_cert (M := Matrix.of fun (i : Fin 2) (j : Fin 2) => (Arr.ofRows (2 * 2) [[0, 0, 1, 1], [0, 0, 1, 1]]).get i j)
      (0 : Matrix (Fin 2) (Fin 0) ℤ) 0 0 0 (by decide) (by decide) ℚ) (by decide)
    (rank_cert (M := Matrix.of fun (i : Fin 2) (j : Fin 2) =>
        ((firstBlock 2 0 (Arr.ofRows (2 * 2) [[0, 0, 1, 1], [0, 0, 1, 1]])).slice 0 2 (2 + 0) (2 * 2)).get i j)
      !![1; 1] !![1, 1] !![1, 0] !![1; 0] (by decide) (by decide) ℚ)
    (by decide)
  have hr0 : ∀ i < c.stab.rows, c.stab.row i = [0, 0, 1, 1] := by rw [h3]; decide
  obtain ⟨V, v1, v2, v3⟩ := C72_columns_partial eigh hE _ 2 0 none c h1 (by decide) h2
    (fun i hi => by rw [hr0 i hi]; decide)
  refine ⟨c, V, h1, v1, ?_⟩
  have hgen : genRows c = [[0, 0, 1, 1], [0, 0, 1, 1]] := by unfold genRows; rw [h3]; decide
  rw [hgen] at v3
  have hgrp : groupOf 2 [[0, 0, 1, 1], [0, 0, 1, 1]] = Submodule.span (ZMod 2) {(rowPauli 2 [0, 0, 1, 1]).vec} := by
    unfold groupOf
    congr 1
    ext v
    simp
  rw [hgrp, finrank_span_singleton (by decide)] at v3
  rcases v3 with ⟨-, hz⟩ | ⟨-, hm⟩
  · exfalso
    have h0 := hz (ket 0) (by
      intro g hg
      have : g = [0, 0, 1, 1] := by simpa using hg
      rw [this, pauliAct_ket, show dotp (rowPauli 2 [0, 0, 1, 1]).z 0 = 0 from by decide, sgn_zero, one_smul,
        show (0 : Fin 2 → ZMod 2) + (rowPauli 2 [0, 0, 1, 1]).x = 0 from by decide])
    have := congrFun h0 0
    simp [ket] at this
  · omega

/-- **C72 refuted (no code space)**.  `StabilizerCode(["XZI", "ZXI", "YYI"], 3, 0)` is accepted although the product of the
three generators is minus the identity: the encoder has no columns. -/
theorem C72_empty_refuted (eigh : Eigh) (hE : eigh.Correct) :
    ∃ c V, stabInit (.rows [[1, 0, 0, 0, 1, 0], [0, 1, 0, 1, 0, 0], [1, 1, 0, 1, 1, 0]]) 3 0 none = .ok c ∧
      encodeKraus eigh c = .ok V ∧ V.cols = 0 := by
  obtain ⟨c, h1, h2, h3⟩ := concrete_accept (l := [[1, 0, 0, 0, 1, 0], [0, 1, 0, 1, 0, 0], [1, 1, 0, 1, 1, 0]]) (n := 3)
    (k := 0) (r := 2) (e := 0)
    (by decide) (by decide) (by decide) (by unfold IsBinary; decide) (by decide)
    (rank_cert (M := Matrix.of fun (i : Fin 3) (j : Fin 3) =>
        (Arr.ofRows (2 * 3) [[1, 0, 0, 0, 1, 0], [0, 1, 0, 1, 0, 0], [1, 1, 0, 1, 1, 0]]).get i j)
      !![1, 0; 0, 1; 1, 1] !![1, 0, 0; 0, 1, 0] !![1, 0, 0; 0, 1, 0] !![1, 0; 0, 1; 0, 0] (by decide) (by decide) ℚ)
    (by decide)
    (rank_cert (M := Matrix.of fun (i : Fin 1) (j : Fin 1) =>
        ((firstBlock 3 2 (Arr.ofRows (2 * 3) [[1, 0, 0, 0, 1, 0], [0, 1, 0, 1, 0, 0], [1, 1, 0, 1, 1, 0]])).slice 2 3 (3 + 2) (2 * 3)).get i j)
      (0 : Matrix (Fin 1) (Fin 0) ℤ) 0 0 0 (by decide) (by decide) ℚ)
    (by decide)
  have hgen : genRows c = [[1, 0, 0, 0, 1, 0], [0, 1, 0, 1, 0, 0], [1, 1, 0, 1, 1, 0]] := by unfold genRows; rw [h3]; decide
  obtain ⟨V, v1, v2, v3⟩ := C72_columns_partial eigh hE _ 3 0 none c h1 (by decide) h2 (by rw [h3]; decide)
  refine ⟨c, V, h1, v1, ?_⟩
  rw [hgen] at v3
  rcases v3 with ⟨h0, -⟩ | ⟨⟨ψ, hne, hf⟩, -⟩
  · exact h0
  · exfalso
    have f1 := hf [1, 0, 0, 0, 1, 0] (by decide)
    have f2 := hf [0, 1, 0, 1, 0, 0] (by decide)
    have f3 := hf [1, 1, 0, 1, 1, 0] (by decide)
    have hc := pauliAct_comp (rowPauli 3 [1, 0, 0, 0, 1, 0]) (rowPauli 3 [0, 1, 0, 1, 0, 0]) ψ
    have hadd : (rowPauli 3 [1, 0, 0, 0, 1, 0]).add (rowPauli 3 [0, 1, 0, 1, 0, 0]) = rowPauli 3 [1, 1, 0, 1, 1, 0] := by
      have ext : ∀ p q : Pauli 3, p.x = q.x → p.z = q.z → p = q := by rintro ⟨⟩ ⟨⟩ rfl rfl; rfl
      exact ext _ _ (by decide) (by decide)
    rw [f2, f1, hadd, f3, show dotp (rowPauli 3 [1, 0, 0, 0, 1, 0]).z (rowPauli 3 [0, 1, 0, 1, 0, 0]).x = 1 from by decide,
      sgn_one, neg_one_smul] at hc
    exact hne (self_eq_neg.mp hc)

/-- The Hermitian matrix that `np.linalg.eigh` reads: the lower triangle, its mirror image and the real part of the
diagonal (numpy's default `UPLO='L'`). -/
noncomputable def lowerHermitian (A : Arr ℂ) : Arr ℂ :=
  ⟨A.rows, A.cols, fun i j => if j < i then A.get i j else if i = j then ((A.get i i).re : ℂ) else star (A.get j i)⟩

/-- The eigensolver looks at nothing but the lower triangle. -/
def Eigh.ReadsLower (eigh : Eigh) : Prop := ∀ A, eigh A = eigh (lowerHermitian A)

theorem lowerHermitian_idem (A : Arr ℂ) : lowerHermitian (lowerHermitian A) = lowerHermitian A := by
  unfold lowerHermitian
  congr 1
  funext i j
  by_cases h1 : j < i
  · simp [h1]
  · by_cases h2 : i = j
    · subst h2; simp
    · simp [h1, h2, show i < j by omega]

/-- There is an eigensolver that meets the contract and reads the lower triangle only. -/
theorem exists_eigh_lower : ∃ eigh : Eigh, eigh.Correct ∧ eigh.ReadsLower := by
  obtain ⟨eigh, h⟩ := exists_eigh
  refine ⟨fun A => eigh (lowerHermitian A), ?_, fun A => by simp only [lowerHermitian_idem]⟩
  intro A n h1 h2 hA
  have hm : (lowerHermitian A).mat n n = A.mat n n := by
    ext i j
    simp only [Arr.mat_apply, lowerHermitian]
    have hij := congrFun (congrFun hA i) j
    rw [conjTranspose_apply, Arr.mat_apply, Arr.mat_apply] at hij
    split_ifs with e1 e2
    · rfl
    · have : i = j := Fin.ext e2
      subst this
      exact Complex.conj_eq_iff_re.mp hij
    · exact hij
  have := h (lowerHermitian A) n h1 h2 (by rw [hm]; exact hA)
  rw [hm] at this
  exact this

/-- **C72 refuted (odd number of Y's)**.  For the code of the single generator YI every eigensolver that reads the lower
triangle makes `encode_krauss_operators` return two columns whose span is fixed by XI, so that no non-zero state in it is
an eigenvector of YI. -/
theorem C72_oddY_refuted (eigh : Eigh) (hE : eigh.Correct) (hL : eigh.ReadsLower) :
    ∃ c V, stabInit (.rows [[1, 0, 1, 0]]) 2 1 none = .ok c ∧ encodeKraus eigh c = .ok V ∧ V.rows = 4 ∧ V.cols = 2 ∧
      ∀ (x : Fin 2 → ℂ) (ψ : Amp 2), (∀ a : Fin (2 ^ 2), ψ (bitsOf 2 a) = ∑ j : Fin 2, V.get a j * x j) →
        pauliAct (rowPauli 2 [1, 0, 0, 0]) ψ = ψ ∧
        (ψ ≠ 0 → ∀ t : ℂ, pauliAct (rowPauli 2 [1, 0, 1, 0]) ψ ≠ t • ψ) := by
  obtain ⟨c, h1, h2, h3, h4, h5, h6, h7, h8⟩ := codeY
  obtain ⟨hA, hcom, -⟩ := stabInit_ok h1
  have hcols := initArray_cols hA
  obtain ⟨Ms, hM1, hM2, hM3⟩ := code_matrices (n := 2) (by decide) hcols h2
  obtain ⟨S, rfl⟩ : ∃ S, Ms = [S] := by
    rw [h5] at hM2
    exact List.length_eq_one_iff.mp hM2
  obtain ⟨s1, s2, s3⟩ := hM3 0 (by simp)
  simp only [List.getElem_cons_zero] at s1 s2 s3
  rw [h6] at s3
  have hX : (lowerHermitian S).mat (2 ^ 2) (2 ^ 2) = pauliN (rowPauli 2 [1, 0, 0, 0]) := by
    have hS : ∀ i j : Fin (2 ^ 2), S.get i j = pauliN (rowPauli 2 [1, 0, 1, 0]) i j := fun i j => by
      rw [← s3]; rfl
    have hZ : ∀ (p : Pauli 2) (i j : Fin (2 ^ 2)), pauliN p i j = ((pauliMatrix ℤ p (bitsOf 2 i) (bitsOf 2 j) : ℤ) : ℂ) := by
      intro p i j
      show pauliMatrix ℂ p (bitsOf 2 i) (bitsOf 2 j) = _
      unfold pauliMatrix sgn
      by_cases h1 : bitsOf 2 i = bitsOf 2 j + p.x
      · by_cases h2 : dotp p.z (bitsOf 2 j) = 0
        · rw [if_pos h1, if_pos h1, if_pos h2, if_pos h2]; simp
        · rw [if_pos h1, if_pos h1, if_neg h2, if_neg h2]; simp
      · rw [if_neg h1, if_neg h1]; simp
    have htab : ∀ i j : Fin (2 ^ 2),
        (j < i → pauliMatrix ℤ (rowPauli 2 [1, 0, 1, 0]) (bitsOf 2 i) (bitsOf 2 j) =
          pauliMatrix ℤ (rowPauli 2 [1, 0, 0, 0]) (bitsOf 2 i) (bitsOf 2 j)) ∧
        (i = j → pauliMatrix ℤ (rowPauli 2 [1, 0, 1, 0]) (bitsOf 2 i) (bitsOf 2 i) =
          pauliMatrix ℤ (rowPauli 2 [1, 0, 0, 0]) (bitsOf 2 i) (bitsOf 2 j)) ∧
        (i < j → pauliMatrix ℤ (rowPauli 2 [1, 0, 1, 0]) (bitsOf 2 j) (bitsOf 2 i) =
          pauliMatrix ℤ (rowPauli 2 [1, 0, 0, 0]) (bitsOf 2 i) (bitsOf 2 j)) := by decide
    ext i j
    obtain ⟨t1, t2, t3⟩ := htab i j
    simp only [Arr.mat_apply, lowerHermitian, hS, hZ]
    split_ifs with e1 e2
    · rw [t1 e1]
    · rw [t2 (Fin.ext e2)]; simp
    · rw [t3 (Fin.lt_def.mpr (by omega))]; simp
  obtain ⟨m, p1, p2, p3, p4⟩ := plusOne_spec hE (lowerHermitian S) (2 ^ 2) s1 s2 (by
    rw [hX]; exact pauliN_hermitian _ (by decide)) (by rw [hX]; exact pauliN_sq _ (by decide))
  rw [← hL S] at p1 p2 p3 p4
  set V := plusOneColumns (eigh S).1 (eigh S).2 with hV
  have hm : m = 2 := by
    have htr := projProd_trace [pauliN (rowPauli 2 [1, 0, 0, 0])] (by
      intro i hi
      simp only [List.length_singleton, Nat.lt_one_iff] at hi
      subst hi
      refine ⟨pauliN (rowPauli 2 [0, 0, 1, 0]), pauliN (rowPauli 2 [0, 0, 1, 0]), pauliN_sq _ (by decide), ?_, by simp⟩
      simp only [List.getElem_cons_zero]
      rw [pauliN_comm, show symp (rowPauli 2 [0, 0, 1, 0]) (rowPauli 2 [1, 0, 0, 0]) = 1 from by decide, sgn_one,
        neg_one_smul])
    simp only [projProd, List.foldl_cons, List.foldl_nil, Matrix.one_mul, List.length_singleton, pow_one] at htr
    rw [← hX, ← p4, trace_mul_comm, p3, trace_one, Fintype.card_fin] at htr
    have : m * 2 = 4 := by exact_mod_cast htr
    omega
  subst hm
  refine ⟨c, V, h1, ?_, p1, p2, ?_⟩
  · unfold encodeKraus
    rw [hM1]
    rfl
  · intro x ψ hψ
    have hXV : pauliN (rowPauli 2 [1, 0, 0, 0]) * V.mat (2 ^ 2) 2 = V.mat (2 ^ 2) 2 := by
      have e1 : V.mat (2 ^ 2) 2 = (1 / 2 : ℂ) • (1 + pauliN (rowPauli 2 [1, 0, 0, 0])) * V.mat (2 ^ 2) 2 := by
        rw [← hX, ← p4, Matrix.mul_assoc, p3, Matrix.mul_one]
      have hsq : pauliN (rowPauli 2 [1, 0, 0, 0]) * pauliN (rowPauli 2 [1, 0, 0, 0]) = 1 := pauliN_sq _ (by decide)
      calc pauliN (rowPauli 2 [1, 0, 0, 0]) * V.mat (2 ^ 2) 2
          = pauliN (rowPauli 2 [1, 0, 0, 0]) * ((1 / 2 : ℂ) • (1 + pauliN (rowPauli 2 [1, 0, 0, 0])) * V.mat (2 ^ 2) 2) := by
            rw [← e1]
        _ = (1 / 2 : ℂ) • (1 + pauliN (rowPauli 2 [1, 0, 0, 0])) * V.mat (2 ^ 2) 2 := by
            rw [← Matrix.mul_assoc, Matrix.mul_smul, Matrix.mul_add, hsq, Matrix.mul_one, add_comm]
        _ = V.mat (2 ^ 2) 2 := e1.symm
    have hφ : (fun a => ψ (bitsEquiv 2 a)) = V.mat (2 ^ 2) 2 *ᵥ x := funext hψ
    have hfix : pauliAct (rowPauli 2 [1, 0, 0, 0]) ψ = ψ := by
      have e1 := pauliN_mulVec (rowPauli 2 [1, 0, 0, 0]) ψ
      rw [hφ, mulVec_mulVec, hXV, ← hφ] at e1
      funext b
      have := congrFun e1 ((bitsEquiv 2).symm b)
      simpa only [Equiv.apply_symm_apply] using this.symm
    refine ⟨hfix, fun hne t ht => ?_⟩
    have c1 := pauliAct_comp (rowPauli 2 [1, 0, 0, 0]) (rowPauli 2 [1, 0, 1, 0]) ψ
    have c2 := pauliAct_comp (rowPauli 2 [1, 0, 1, 0]) (rowPauli 2 [1, 0, 0, 0]) ψ
    have c3 := pauliAct_comp (rowPauli 2 [1, 0, 1, 0]) (rowPauli 2 [1, 0, 1, 0]) ψ
    have ext : ∀ p q : Pauli 2, p.x = q.x → p.z = q.z → p = q := by rintro ⟨⟩ ⟨⟩ rfl rfl; rfl
    rw [show (rowPauli 2 [1, 0, 1, 0]).add (rowPauli 2 [1, 0, 0, 0]) = (rowPauli 2 [1, 0, 0, 0]).add (rowPauli 2 [1, 0, 1, 0])
      from ext _ _ (by decide) (by decide), show dotp (rowPauli 2 [1, 0, 1, 0]).z (rowPauli 2 [1, 0, 0, 0]).x = 1 from by decide,
      sgn_one, hfix, ht, neg_one_smul] at c2
    rw [show dotp (rowPauli 2 [1, 0, 0, 0]).z (rowPauli 2 [1, 0, 1, 0]).x = 0 from by decide, sgn_zero, one_smul, ht,
      pauliAct_smul, hfix] at c1
    rw [← c1] at c2
    have h0 : t • ψ = 0 := self_eq_neg.mp c2
    rw [ht, pauliAct_smul, ht, h0, smul_zero, show (rowPauli 2 [1, 0, 1, 0]).add (rowPauli 2 [1, 0, 1, 0]) = ofVec 0
      from ext _ _ (by decide) (by decide), show dotp (rowPauli 2 [1, 0, 1, 0]).z (rowPauli 2 [1, 0, 1, 0]).x = 1 from by decide,
      sgn_one, neg_one_smul] at c3
    have : pauliAct (ofVec 0) ψ = ψ := pauliAct_one ψ
    rw [this] at c3
    exact hne (neg_eq_zero.mp c3.symm)

/-- The hypotheses of `C72_columns_partial` and of `C63_encoders_agree_iff` hold of the code of XXXX and ZZZZ. -/
example (eigh : Eigh) (hE : eigh.Correct) : ∃ c V, stabInit (.rows [[1, 1, 1, 1, 0, 0, 0, 0], [0, 0, 0, 0, 1, 1, 1, 1]]) 4 2 none = .ok c ∧
    encodeKraus eigh c = .ok V ∧ V.cols = 4 := by
  obtain ⟨c, h1, h2, h3, h4, h5, h6, h7, -⟩ := code422
  obtain ⟨V, enc, v1, v2, v3, -⟩ := C63_encoders_agree_iff eigh hE _ 4 2 c h1 (by decide) h2 h3 (by
    intro a ha
    rw [h5] at ha
    match a, ha with
    | 0, _ => rw [h6]; decide
    | 1, _ => rw [h7]; decide)
  exact ⟨c, V, h1, v1, v3⟩

end PyQ
