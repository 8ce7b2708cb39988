import Verif.Props.Measure
import Verif.Props.LogicalCircuit
import Verif.Props.CircuitGuards
import Verif.Props.CodeKraus
import Verif.Lemmas.FixedSpace

/-! # C59 - C62: logical operators are complete, encoded states span the code, correction and detection -/

namespace PyQ

open Spec Module

/-- Facts about an accepted code used below. -/
theorem accepted_families {s : StabInput} {n k : ℕ} {c : StabCode} (h : stabInit s n k none = .ok c)
    (hb : BinaryArr c.stab) (hind : Independent n c.stab) :
    c.normalForm.rows + k = n ∧ c.normalForm.cols = 2 * n ∧
    LinearIndependent (ZMod 2) (fun i : Fin c.normalForm.rows => (rowPauli n (c.normalForm.row i)).vec) ∧
    (∀ i < c.normalForm.rows, ∀ j < c.normalForm.rows,
      symp (rowPauli n (c.normalForm.row i)) (rowPauli n (c.normalForm.row j)) = 0) ∧
    groupOf n c.iter = Submodule.span (ZMod 2)
      (Set.range fun i : Fin c.normalForm.rows => (rowPauli n (c.normalForm.row i)).vec) := by
  obtain ⟨hn, hk, hst, hsh, -, -, hcom⟩ := accepted_facts h hb hind
  obtain ⟨hA, -, -, hN, -⟩ := stabInit_ok h
  have hE := (standardNormalForm_equi (initArray_cols hA) hN).1
  have hi := hE.independent hind
  have hr : ∀ i, (rowPauli n (c.normalForm.row i)).vec = rowVec n c.normalForm i := rowPauli_row hsh.cols
  refine ⟨hsh.rows, hsh.cols, ?_, ?_, ?_⟩
  · simp only [hr]; exact hi
  · intro i hi j hj
    rw [← sympV_vec, hr, hr]; exact hcom i hi j hj
  · unfold StabCode.iter
    rw [groupOf_rows hsh.cols]
    unfold rowSpan
    simp only [hr]

theorem iter_mem {c : StabCode} {g : List ℤ} : g ∈ c.iter ↔ ∃ i < c.normalForm.rows, c.normalForm.row i = g := by
  simp [StabCode.iter]

/-- **C59**.  For an accepted code with independent generators, a Pauli operator commutes with every row of the normal
form iff it is, up to phase, a product of rows of the normal form and of the logical operators; the logical operators in
the product are determined: `X_i` occurs iff the operator anticommutes with `Z_i`, `Z_i` occurs iff it anticommutes with
`X_i`. -/
theorem C59_normalizer (s : StabInput) (n k : ℕ) (c : StabCode) (h : stabInit s n k none = .ok c)
    (hb : BinaryArr c.stab) (hind : Independent n c.stab) (p : Pauli n) :
    ((∀ g ∈ c.iter, symp p (rowPauli n g) = 0) ↔
      ∃ a b : Fin k → ZMod 2, p.vec + ∑ i, a i • (rowPauli n (c.logicalX.row i)).vec +
        ∑ i, b i • (rowPauli n (c.logicalZ.row i)).vec ∈ groupOf n c.iter) ∧
    ∀ a b : Fin k → ZMod 2, p.vec + ∑ i, a i • (rowPauli n (c.logicalX.row i)).vec +
        ∑ i, b i • (rowPauli n (c.logicalZ.row i)).vec ∈ groupOf n c.iter →
      (∀ i, a i = symp p (rowPauli n (c.logicalZ.row i))) ∧ ∀ i, b i = symp p (rowPauli n (c.logicalX.row i)) := by
  obtain ⟨hm, hcols, hli, hgg, hspan⟩ := accepted_families h hb hind
  obtain ⟨-, -, -, -, -, -, hlg, hll⟩ := C08_logical_operators s n k c h hb hind
  set g : Fin c.normalForm.rows → BVec n := fun i => (rowPauli n (c.normalForm.row i)).vec with hg
  set x : Fin k → BVec n := fun i => (rowPauli n (c.logicalX.row i)).vec with hx
  set z : Fin k → BVec n := fun i => (rowPauli n (c.logicalZ.row i)).vec with hz
  have gg : ∀ i j, sympV (g i) (g j) = 0 := fun i j => hgg i i.2 j j.2
  have xg : ∀ i j, sympV (x i) (g j) = 0 := fun i j => (hlg i i.2 _ (iter_mem.mpr ⟨j, j.2, rfl⟩)).1
  have zg : ∀ i j, sympV (z i) (g j) = 0 := fun i j => (hlg i i.2 _ (iter_mem.mpr ⟨j, j.2, rfl⟩)).2
  have xz : ∀ i j, sympV (x i) (z j) = if i = j then 1 else 0 := by
    intro i j
    have := (hll i i.2 j j.2).1
    simp only [Fin.val_inj] at this
    exact this
  have xx : ∀ i j, sympV (x i) (x j) = 0 := fun i j => (hll i i.2 j j.2).2.1
  have zz : ∀ i j, sympV (z i) (z j) = 0 := fun i j => (hll i i.2 j j.2).2.2
  have zx : ∀ i j, sympV (z i) (x j) = if i = j then 1 else 0 := by
    intro i j; rw [sympV_comm, xz]; simp only [eq_comm]
  have a2 : ∀ t : ZMod 2, t + t = 0 := add_self_z
  -- pairings of the reduced vector
  have eg : ∀ (a b : Fin k → ZMod 2) j, sympV (p.vec + ∑ i, a i • x i + ∑ i, b i • z i) (g j) = sympV p.vec (g j) := by
    intro a b j
    simp only [sympV_add_left, sympV_sum_left, sympV_smul_left, xg, zg, mul_zero, Finset.sum_const_zero, add_zero]
  have ex : ∀ (a b : Fin k → ZMod 2) j, sympV (p.vec + ∑ i, a i • x i + ∑ i, b i • z i) (x j) = sympV p.vec (x j) + b j := by
    intro a b j
    simp only [sympV_add_left, sympV_sum_left, sympV_smul_left, xx, zx, mul_zero, Finset.sum_const_zero, add_zero]
    simp
  have ez : ∀ (a b : Fin k → ZMod 2) j, sympV (p.vec + ∑ i, a i • x i + ∑ i, b i • z i) (z j) = sympV p.vec (z j) + a j := by
    intro a b j
    simp only [sympV_add_left, sympV_sum_left, sympV_smul_left, zz, xz, mul_zero, Finset.sum_const_zero, add_zero]
    simp
  have horth : ∀ w ∈ groupOf n c.iter, (∀ j, sympV w (g j) = 0) ∧ (∀ j, sympV w (x j) = 0) ∧ ∀ j, sympV w (z j) = 0 := by
    intro w hw
    refine ⟨fun j => ?_, fun j => ?_, fun j => ?_⟩
    · rw [sympV_comm]
      refine symp_group (rows := c.iter) (fun q hq => ?_) w hw
      obtain ⟨i, hi, rfl⟩ := iter_mem.mp hq
      exact gg j ⟨i, hi⟩
    · rw [sympV_comm]
      refine symp_group (rows := c.iter) (fun q hq => ?_) w hw
      obtain ⟨i, hi, rfl⟩ := iter_mem.mp hq
      exact xg j ⟨i, hi⟩
    · rw [sympV_comm]
      refine symp_group (rows := c.iter) (fun q hq => ?_) w hw
      obtain ⟨i, hi, rfl⟩ := iter_mem.mp hq
      exact zg j ⟨i, hi⟩
  refine ⟨⟨?_, ?_⟩, ?_⟩
  · intro hp
    refine ⟨fun i => sympV p.vec (z i), fun i => sympV p.vec (x i), ?_⟩
    rw [hspan]
    refine commutant_mem (x := x) (z := z) hm hli gg xg zg xz xx zz ?_ ?_ ?_
    · intro j; rw [eg]; exact hp _ (iter_mem.mpr ⟨j, j.2, rfl⟩)
    · intro j; rw [ex]; exact a2 _
    · intro j; rw [ez]; exact a2 _
  · rintro ⟨a, b, hab⟩ q hq
    obtain ⟨i, hi, rfl⟩ := iter_mem.mp hq
    have := (horth _ hab).1 ⟨i, hi⟩
    rw [eg] at this
    exact this
  · intro a b hab
    obtain ⟨-, h2, h3⟩ := horth _ hab
    constructor
    · intro i
      have := h3 i
      rw [ez] at this
      have h' := congrArg (· + a i) this
      simp only [add_assoc, a2, add_zero, zero_add] at h'
      exact h'.symm
    · intro i
      have := h2 i
      rw [ex] at this
      have h' := congrArg (· + b i) this
      simp only [add_assoc, a2, add_zero, zero_add] at h'
      exact h'.symm

/-- The circuits and states of all logical basis states. -/
theorem encoded_family {s : StabInput} {n k : ℕ} {c : StabCode} (h : stabInit s n k none = .ok c)
    (hb : BinaryArr c.stab) (hind : Independent n c.stab) :
    ∃ enc : (Fin k → ZMod 2) → List Gate, (∀ δ, encodingCircuit c n (bitsList δ) = .ok (enc δ)) ∧
      (∀ δ, (run (enc δ) (ket 0) : Amp n) = codeword n k c.rank c.normalForm (bitFn (bitsList δ))) ∧
      (∀ δ δ', braket (run (enc δ) (ket 0) : Amp n) (run (enc δ') (ket 0)) = if δ = δ' then 1 else 0) := by
  have henc := fun δ : Fin k → ZMod 2 =>
    C11_encoding_closed_form s n k c h hb hind (bitsList δ) (bitsList_length δ) (bitsList_binary δ)
  choose enc h1 _ h3 using henc
  refine ⟨enc, h1, h3, fun δ δ' => ?_⟩
  obtain ⟨gs, gs', e1, e2, e3⟩ := C12_encoding_isometry s n k c h hb hind (bitsList δ) (bitsList δ') (bitsList_length δ)
    (bitsList_binary δ) (bitsList_length δ') (bitsList_binary δ')
  rw [h1] at e1 e2
  cases e1; cases e2
  rw [e3]
  congr 1
  apply propext
  constructor
  · intro he
    funext i
    have := congrArg (fun l => bitFn l i) he
    simp only [bitFn_bitsList, dif_pos i.2] at this
    exact this
  · rintro rfl; rfl

theorem braket_sum_right {n : ℕ} {ι : Type} (t : Finset ι) (φ : Amp n) (f : ι → Amp n) :
    braket φ (∑ i ∈ t, f i) = ∑ i ∈ t, braket φ (f i) := by
  unfold braket
  simp only [Finset.sum_apply, Finset.mul_sum]
  rw [Finset.sum_comm]

/-- The squared length of a superposition of encoded states is that of its coefficients. -/
theorem encoded_norm {n k : ℕ} {f : (Fin k → ZMod 2) → Amp n} (hf : ∀ δ δ', braket (f δ) (f δ') = if δ = δ' then 1 else 0)
    (α : (Fin k → ZMod 2) → ℂ) : normSq (∑ δ, α δ • f δ) = normSq α := by
  have h1 : ∀ δ, braket (f δ) (∑ δ, α δ • f δ) = α δ := by
    intro δ
    rw [braket_sum_right]
    simp only [braket_smul_right, hf]
    simp
  have h2 : braket (∑ δ, α δ • f δ) (∑ δ, α δ • f δ) = ((normSq α : ℝ) : ℂ) := by
    have hl : ∀ ψ : Amp n, braket (∑ δ, α δ • f δ) ψ = ∑ δ, (starRingEnd ℂ) (α δ) * braket (f δ) ψ := by
      intro ψ
      unfold braket
      simp only [Finset.sum_apply, Pi.smul_apply, smul_eq_mul, map_sum, map_mul, Finset.mul_sum, Finset.sum_mul]
      rw [Finset.sum_comm]
      exact Finset.sum_congr rfl fun δ _ => Finset.sum_congr rfl fun b _ => by ring
    rw [hl]
    simp only [h1]
    rw [normSq_braket]
    rfl
  rw [← normSq_braket] at h2
  exact_mod_cast h2

/-- **C60**.  For an accepted code with independent generators with even numbers of Y's, the states fixed by all rows of
the normal form are exactly the superpositions of the `2^k` states prepared by `encoding_circuit`, with unique
coefficients. -/
theorem C60_encoded_span (s : StabInput) (n k : ℕ) (c : StabCode) (h : stabInit s n k none = .ok c)
    (hb : BinaryArr c.stab) (hind : Independent n c.stab)
    (hY : ∀ a < c.stab.rows, parityY (rowPauli n (c.stab.row a)) = 0) :
    ∃ enc : (Fin k → ZMod 2) → List Gate, (∀ δ, encodingCircuit c n (bitsList δ) = .ok (enc δ)) ∧
      ∀ ψ : Amp n, ((∀ g ∈ c.iter, pauliAct (rowPauli n g) ψ = ψ) ↔ ∃ α : (Fin k → ZMod 2) → ℂ, ψ = ∑ δ, α δ • run (enc δ) (ket 0)) ∧
        ∀ α β : (Fin k → ZMod 2) → ℂ, ψ = ∑ δ, α δ • run (enc δ) (ket 0) → ψ = ∑ δ, β δ • run (enc δ) (ket 0) → α = β := by
  obtain ⟨enc, e1, -, e3⟩ := encoded_family h hb hind
  obtain ⟨hm, -, hli, hgg, -⟩ := accepted_families h hb hind
  refine ⟨enc, e1, fun ψ => ?_⟩
  have hfix : ∀ δ, ∀ g ∈ c.iter, pauliAct (rowPauli n g) (run (enc δ) (ket 0)) = run (enc δ) (ket 0) := by
    intro δ
    obtain ⟨gs, g1, g2⟩ := C13_even_generators_rows_fix s n k c h hb hind hY (bitsList δ) (bitsList_length δ) (bitsList_binary δ)
    rw [e1] at g1
    cases g1
    exact g2
  have hcoef : ∀ (α : (Fin k → ZMod 2) → ℂ) δ, braket (run (enc δ) (ket 0) : Amp n) (∑ δ, α δ • run (enc δ) (ket 0)) = α δ := by
    intro α δ
    rw [braket_sum_right]
    simp only [braket_smul_right, e3]
    simp
  set f : (Fin k → ZMod 2) → Amp n := fun δ => run (enc δ) (ket 0) with hf
  have hlin : LinearIndependent ℂ f := by
    rw [Fintype.linearIndependent_iff]
    intro α hα δ
    rw [← hcoef α δ, show (∑ δ, α δ • run (enc δ) (ket 0) : Amp n) = 0 from hα]
    unfold braket; simp
  set ps : Fin c.normalForm.rows → Pauli n := fun i => rowPauli n (c.normalForm.row i) with hps
  have hmem : ∀ φ : Amp n, φ ∈ fixedSpace ps ↔ ∀ g ∈ c.iter, pauliAct (rowPauli n g) φ = φ := by
    intro φ
    rw [mem_fixedSpace]
    constructor
    · intro hφ g hg
      obtain ⟨i, hi, rfl⟩ := iter_mem.mp hg
      exact hφ ⟨i, hi⟩
    · intro hφ i
      exact hφ _ (iter_mem.mpr ⟨i, i.2, rfl⟩)
  have hYr : ∀ i, parityY (ps i) = 0 := by
    intro i
    by_contra hne
    have h1 : parityY (ps i) = 1 := (zmod2_cases _).resolve_left hne
    have hfx := hfix 0 _ (iter_mem.mpr ⟨i, i.2, rfl⟩)
    have h2 := congrArg (pauliAct (ps i)) hfx
    have hs : pauliAct (ps i) (pauliAct (ps i) (f 0)) = -f 0 := by
      rw [pauliAct_comp, show dotp (ps i).z (ps i).x = 1 from h1, sgn_one, neg_one_smul]
      have : (ps i).add (ps i) = ⟨0, 0⟩ := by simp [Pauli.add, add_self_f]
      rw [this, pauliAct_one]
    have h3 : pauliAct (ps i) (f 0) = f 0 := hfx
    have h4 : -f 0 = f 0 := by rw [← hs, h3, h3]
    have h5 : f 0 = 0 := by
      funext b
      have := congrFun h4 b
      rw [Pi.neg_apply] at this
      have h6 : (2 : ℂ) * f 0 b = 0 := by linear_combination -this
      simpa using h6
    have := e3 0 0
    rw [show (run (enc 0) (ket 0) : Amp n) = 0 from h5, if_pos rfl] at this
    unfold braket at this
    simp at this
  have hdim := fixed_finrank ps (fun i j => hgg i i.2 j j.2) hYr hli
  have hdim2 : finrank ℂ (fixedSpace ps) = 2 ^ k := by
    have e : 2 ^ n = 2 ^ k * 2 ^ c.normalForm.rows := by rw [← pow_add]; congr 1; omega
    rw [e] at hdim
    exact Nat.eq_of_mul_eq_mul_right (by positivity) hdim
  have hspan : Submodule.span ℂ (Set.range f) = fixedSpace ps := by
    apply Submodule.eq_of_le_of_finrank_le
    · rw [Submodule.span_le]
      rintro _ ⟨δ, rfl⟩
      exact (hmem _).mpr (hfix δ)
    · rw [hdim2, finrank_span_eq_card hlin]
      simp [ZMod.card]
  refine ⟨?_, ?_⟩
  · rw [← hmem, ← hspan, Submodule.mem_span_range_iff_exists_fun]
    constructor
    · rintro ⟨α, hα⟩; exact ⟨α, hα.symm⟩
    · rintro ⟨α, hα⟩; exact ⟨α, hα.symm⟩
  · intro α β ha hb'
    funext δ
    rw [← hcoef α δ, ← hcoef β δ, ← ha, ← hb']

/-- A state of the code space with norm one. -/
theorem group_act {n : ℕ} {rows : List (List ℤ)} :
    ∀ v ∈ groupOf n rows, ∃ t : ZMod 2, ∀ ψ : Amp n, (∀ g ∈ rows, pauliAct (rowPauli n g) ψ = ψ) →
      pauliAct (ofVec v) ψ = (sgn t : ℂ) • ψ := by
  intro v hv
  unfold groupOf at hv
  induction hv using Submodule.span_induction with
  | zero => exact ⟨0, fun ψ _ => by rw [sgn_zero, one_smul]; exact pauliAct_one ψ⟩
  | add x y _ _ hx hy =>
    obtain ⟨a, ha⟩ := hx
    obtain ⟨b, hb⟩ := hy
    refine ⟨dotp (ofVec x).z (ofVec y).x + (b + a), fun ψ hψ => ?_⟩
    have hc := pauliAct_comp (ofVec x) (ofVec y) ψ
    rw [hb ψ hψ, pauliAct_smul, ha ψ hψ, smul_smul] at hc
    have hc2 := congrArg (fun φ => (sgn (dotp (ofVec x).z (ofVec y).x) : ℂ) • φ) hc
    simp only [smul_smul] at hc2
    rw [sgn_mul_self, one_smul] at hc2
    rw [sgn_add, sgn_add, hc2]
    rfl
  | smul c x _ hx =>
    rcases zmod2_cases c with rfl | rfl
    · exact ⟨0, fun ψ _ => by rw [sgn_zero, one_smul, zero_smul]; exact pauliAct_one ψ⟩
    · rw [one_smul]; exact hx
  | mem x hx =>
    obtain ⟨p, hp, rfl⟩ := hx
    exact ⟨0, fun ψ hψ => by rw [sgn_zero, one_smul]; exact hψ p hp⟩

/-- **C61**.  For an accepted code with independent generators with even numbers of Y's, let a superposition of encoded
states suffer the Pauli error `e`, and let `apply_stabilizer_circuit` then apply the operator `r` (0/1 rows of length
`2 n`).  The result is the state before the error, up to one factor `ω` for all states, iff `e` and `r` differ by an
element of the group of the normal form; then `|ω| = 1`, and `decoding_circuit` moves the logical state to its ancillas
as if nothing had happened. -/
theorem C61_correction (s : StabInput) (n k : ℕ) (c : StabCode) (h : stabInit s n k none = .ok c)
    (hb : BinaryArr c.stab) (hind : Independent n c.stab)
    (hY : ∀ a < c.stab.rows, parityY (rowPauli n (c.stab.row a)) = 0)
    (e r : List ℤ) (hr : r.length = 2 * n) (hrb : IsBinary r) :
    ∃ (enc : (Fin k → ZMod 2) → List Gate) (corr dec : List Gate),
      (∀ δ, encodingCircuit c n (bitsList δ) = .ok (enc δ)) ∧ applyStabilizerCircuit n (.bin r) = .ok corr ∧
      decodingCircuit c n true = .ok dec ∧
      ((∃ ω : ℂ, ∀ α : (Fin k → ZMod 2) → ℂ,
          run corr (pauliAct (rowPauli n e) (∑ δ, α δ • (run (enc δ) (ket 0) : Amp n))) = ω • ∑ δ, α δ • run (enc δ) (ket 0)) ↔
        (rowPauli n e).vec + (rowPauli n r).vec ∈ groupOf n c.iter) ∧
      ∀ ω : ℂ, (∀ α : (Fin k → ZMod 2) → ℂ,
          run corr (pauliAct (rowPauli n e) (∑ δ, α δ • (run (enc δ) (ket 0) : Amp n))) = ω • ∑ δ, α δ • run (enc δ) (ket 0)) →
        Complex.normSq ω = 1 ∧ ∀ α : (Fin k → ZMod 2) → ℂ,
          run dec (tensor (run corr (pauliAct (rowPauli n e) (∑ δ, α δ • (run (enc δ) (ket 0) : Amp n)))) (ket 0)) =
            ω • tensor (run (enc 0) (ket 0)) (∑ δ, α δ • ket δ) := by
  obtain ⟨hn, hk, -, hsh, hX, hZ, -⟩ := accepted_facts h hb hind
  obtain ⟨enc, e1, e2, e3⟩ := encoded_family h hb hind
  obtain ⟨enc', dec, d1, d2, -, d4⟩ := C15_decoding s n k c h hb hind n true (Or.inl ⟨rfl, rfl⟩)
  have henc : enc' = enc := by
    funext δ
    have h1 := d1 δ
    rw [e1] at h1
    exact (Except.ok.inj h1).symm
  subst henc
  obtain ⟨corr, str, c1, -, -, c4⟩ := C48_apply_stabilizer n r hr hrb
  have hfix : ∀ δ, ∀ g ∈ c.iter, pauliAct (rowPauli n g) (run (enc' δ) (ket 0)) = run (enc' δ) (ket 0) := by
    intro δ
    obtain ⟨gs, g1, g2⟩ := C13_even_generators_rows_fix s n k c h hb hind hY (bitsList δ) (bitsList_length δ) (bitsList_binary δ)
    rw [e1] at g1
    cases g1
    exact g2
  have hnz : ∀ δ, (run (enc' δ) (ket 0) : Amp n) ≠ 0 := fun δ => encoded_ne_zero h hb hind (bitsList_length δ) (bitsList_binary δ) (e1 δ)
  set I' : ℂ := Complex.I ^ (str.count 'Y') with hI'
  have hI : Complex.normSq I' = 1 := by rw [hI', map_pow, Complex.normSq_I, one_pow]
  set p : Pauli n := (rowPauli n r).add (rowPauli n e) with hp
  set σ : ℂ := sgn (dotp (rowPauli n r).z (rowPauli n e).x) with hσ
  have hσσ : σ * σ = 1 := sgn_mul_self _
  have hσn : Complex.normSq σ = 1 := by
    rw [hσ]; rcases zmod2_cases (dotp (rowPauli n r).z (rowPauli n e).x) with e0 | e0 <;> rw [e0] <;> simp
  have hact : ∀ ψ : Amp n, run corr (pauliAct (rowPauli n e) ψ) = (I' * σ) • pauliAct p ψ := by
    intro ψ
    rw [c4, pauliAct_comp, smul_smul]
  have hI0 : I' * σ ≠ 0 := by
    intro h0
    have := congrArg Complex.normSq h0
    rw [map_mul, hI, hσn, map_zero] at this
    norm_num at this
  have hvec : p.vec = (rowPauli n e).vec + (rowPauli n r).vec := by
    rw [add_comm]; rfl
  have hone : ∀ δ : Fin k → ZMod 2, ∑ δ', (Pi.single δ (1 : ℂ) : (Fin k → ZMod 2) → ℂ) δ' • (run (enc' δ') (ket 0) : Amp n) =
      run (enc' δ) (ket 0) := by
    intro δ
    rw [Finset.sum_eq_single δ]
    · rw [Pi.single_eq_same, one_smul]
    · intro δ' _ hne; rw [Pi.single_eq_of_ne hne, zero_smul]
    · simp
  have hpauli_sum : ∀ (q : Pauli n) (α : (Fin k → ZMod 2) → ℂ), pauliAct q (∑ δ, α δ • (run (enc' δ) (ket 0) : Amp n)) =
      ∑ δ, α δ • pauliAct q (run (enc' δ) (ket 0)) := by
    intro q α
    unfold pauliAct
    rw [Matrix.mulVec_sum]
    exact Finset.sum_congr rfl fun δ _ => Matrix.mulVec_smul _ _ _
  refine ⟨enc', corr, dec, e1, c1, d2, ⟨?_, ?_⟩, ?_⟩
  · rintro ⟨ω, hω⟩
    -- the product is a multiple of the identity on encoded states, hence commutes with rows and logical operators
    have hsc : ∀ δ, pauliAct p (run (enc' δ) (ket 0)) = ((I' * σ)⁻¹ * ω) • (run (enc' δ) (ket 0) : Amp n) := by
      intro δ
      have := hω (Pi.single δ 1)
      rw [hone, hact] at this
      have h2 := congrArg (fun φ => (I' * σ)⁻¹ • φ) this
      simp only [smul_smul] at h2
      rw [inv_mul_cancel₀ hI0, one_smul] at h2
      exact h2
    set w := (I' * σ)⁻¹ * ω with hw
    have hw0 : w ≠ 0 := by
      intro h0
      have h1 := hsc 0
      rw [h0, zero_smul] at h1
      have hN : Normalised (run (enc' 0) (ket 0) : Amp n) := normalised_of_braket (by rw [e3, if_pos rfl])
      have h2 := normalised_pauli p hN
      rw [h1] at h2
      unfold Normalised at h2
      simp at h2
    -- an operator mapping an encoded state to a multiple of an encoded state commutes with p
    have hcomm : ∀ (q : Pauli n) (δ δ' : Fin k → ZMod 2) (t : ℂ), t ≠ 0 →
        pauliAct q (run (enc' δ) (ket 0)) = t • (run (enc' δ') (ket 0) : Amp n) → symp p q = 0 := by
      intro q δ δ' t ht hq
      by_contra hne
      have h1 : symp p q = 1 := (zmod2_cases _).resolve_left hne
      have a1 : pauliAct p (pauliAct q (run (enc' δ) (ket 0))) = (w * t) • (run (enc' δ') (ket 0) : Amp n) := by
        rw [hq, pauliAct_smul, hsc, smul_smul, mul_comm]
      have a2 : pauliAct q (pauliAct p (run (enc' δ) (ket 0))) = (w * t) • (run (enc' δ') (ket 0) : Amp n) := by
        rw [hsc, pauliAct_smul, hq, smul_smul]
      rw [pauliAct_comm, h1, a2, sgn_one, neg_one_smul] at a1
      have a3 : (2 * (w * t)) • (run (enc' δ') (ket 0) : Amp n) = 0 := by
        rw [mul_smul, two_smul]
        nth_rewrite 1 [← a1]
        exact neg_add_cancel _
      rcases smul_eq_zero.mp a3 with a4 | a4
      · exact (mul_ne_zero two_ne_zero (mul_ne_zero hw0 ht)) a4
      · exact hnz δ' a4
    obtain ⟨c59, -⟩ := C59_normalizer s n k c h hb hind p
    obtain ⟨a, b, hab⟩ := c59.mp (by
      intro g hg
      exact hcomm _ 0 0 1 one_ne_zero (by rw [hfix 0 g hg, one_smul]))
    obtain ⟨u1, u2⟩ := (C59_normalizer s n k c h hb hind p).2 a b hab
    have ha0 : ∀ i, a i = 0 := by
      intro i
      rw [u1 i]
      refine hcomm _ 0 0 1 one_ne_zero ?_
      rw [e2, hZ, lz_codeword hsh i.2, bitFn_bitsList, dif_pos i.2, Pi.zero_apply, sgn_zero]
    have hb0 : ∀ i, b i = 0 := by
      intro i
      rw [u2 i]
      refine hcomm _ 0 (Pi.single i 1) 1 one_ne_zero ?_
      rw [e2, e2, hX, lx_codeword hsh i.2, one_smul]
      congr 1
      funext j
      by_cases hj : j = i
      · subst hj
        rw [Function.update_self, bitFn_bitsList, dif_pos i.2, bitFn_bitsList, dif_pos i.2]
        simp
      · rw [Function.update_of_ne hj, bitFn_bitsList, bitFn_bitsList]
        by_cases hjk : j < k
        · rw [dif_pos hjk, dif_pos hjk, Pi.single_eq_of_ne (by intro h'; exact hj (by rw [← h'])), Pi.zero_apply]
        · rw [dif_neg hjk, dif_neg hjk]
    simp only [ha0, hb0, zero_smul, Finset.sum_const_zero, add_zero] at hab
    rw [← hvec]; exact hab
  · intro hmem
    rw [← hvec] at hmem
    obtain ⟨t, ht⟩ := group_act _ hmem
    rw [ofVec_vec] at ht
    refine ⟨I' * σ * sgn t, fun α => ?_⟩
    rw [hact, hpauli_sum, mul_smul (I' * σ), Finset.smul_sum (r := (sgn t : ℂ))]
    congr 1
    refine Finset.sum_congr rfl fun δ _ => ?_
    rw [ht _ (hfix δ), smul_comm]
  · intro ω hω
    have hN : Normalised (run (enc' 0) (ket 0) : Amp n) := normalised_of_braket (by rw [e3, if_pos rfl])
    constructor
    · have h1 := hω (Pi.single 0 1)
      rw [hone, hact] at h1
      have h2 := congrArg normSq h1
      rw [normSq_smul, normSq_smul, map_mul, hI, hσn, show normSq (pauliAct p (run (enc' 0) (ket 0) : Amp n)) = 1 from normalised_pauli p hN,
        show normSq (run (enc' 0) (ket 0) : Amp n) = 1 from hN] at h2
      linarith
    · intro α
      rw [hω α, tensor_smul_left, run_smul, d4]

/-- **C62**.  For an accepted code (`n` is `c.n`) with independent generators with even numbers of Y's, a normalised
superposition of encoded states that has suffered the Pauli error `e`: measuring all rows of the normal form, each with a
fresh ancilla, returns with certainty the list of the commutation signs of `e` with the rows, whatever the superposition,
and leaves the state unchanged. -/
theorem C62_syndrome (s : StabInput) (k : ℕ) (c : StabCode) (h : stabInit s c.n k none = .ok c)
    (hb : BinaryArr c.stab) (hind : Independent c.n c.stab)
    (hY : ∀ a < c.stab.rows, parityY (rowPauli c.n (c.stab.row a)) = 0) (e : Pauli c.n)
    (α : (Fin k → ZMod 2) → ℂ) (hα : Normalised α) :
    ∃ enc : (Fin k → ZMod 2) → List Gate, (∀ δ, encodingCircuit c c.n (bitsList δ) = .ok (enc δ)) ∧
      ∀ rs φ', History (FreshStep c) (pauliAct e (∑ δ, α δ • run (enc δ) (ket 0))) (c.iter.map StabArg.bin) rs φ' ↔
        rs = c.iter.map (fun g => symp (rowPauli c.n g) e) ∧ φ' = pauliAct e (∑ δ, α δ • run (enc δ) (ket 0)) := by
  obtain ⟨-, -, -, hsh, -, -, -⟩ := accepted_facts h hb hind
  obtain ⟨enc, e1, e2⟩ := C60_encoded_span s c.n k c h hb hind hY
  obtain ⟨enc', e1', -, e3⟩ := encoded_family h hb hind
  have henc : enc' = enc := by
    funext δ
    have h1 := e1' δ
    rw [e1] at h1
    exact (Except.ok.inj h1).symm
  subst henc
  refine ⟨enc', e1, ?_⟩
  set ψ : Amp c.n := ∑ δ, α δ • run (enc' δ) (ket 0) with hψ
  have hfix : ∀ g ∈ c.iter, pauliAct (rowPauli c.n g) ψ = ψ := ((e2 ψ).1).mpr ⟨α, rfl⟩
  have hN : Normalised ψ := by
    show normSq ψ = 1
    rw [hψ, encoded_norm e3]; exact hα
  have key := C17_fresh_history c (pauliAct e ψ) (normalised_pauli e hN) (fun st => symp (st.pauli c.n) e)
    (c.iter.map StabArg.bin) (by
      intro st hst
      obtain ⟨g, hg, rfl⟩ := List.mem_map.mp hst
      have hf := hfix g hg
      obtain ⟨a, ha, rfl⟩ := iter_mem.mp hg
      refine ⟨⟨by rw [row_length, hsh.cols], row_binary hsh.binary ha⟩, ?_⟩
      show pauliAct (rowPauli c.n _) _ = _
      rw [pauliAct_comm, hf]
      rfl)
  have hmap : (c.iter.map StabArg.bin).map (fun st => symp (st.pauli c.n) e) = c.iter.map (fun g => symp (rowPauli c.n g) e) := by
    rw [List.map_map]; rfl
  rw [hmap] at key
  intro rs φ'
  constructor
  · exact key.1 rs φ'
  · rintro ⟨rfl, rfl⟩; exact key.2

/-- **C62, detection**.  Two Pauli errors on the same encoded state can give the same results iff their product commutes
with every row of the normal form, that is, is up to phase a product of rows and logical operators (C59).  In particular
(`e' = 1`) an error is seen by the measurements iff it anticommutes with some row. -/
theorem C62_same_syndrome (s : StabInput) (k : ℕ) (c : StabCode) (h : stabInit s c.n k none = .ok c)
    (hb : BinaryArr c.stab) (hind : Independent c.n c.stab)
    (hY : ∀ a < c.stab.rows, parityY (rowPauli c.n (c.stab.row a)) = 0) (e e' : Pauli c.n)
    (α : (Fin k → ZMod 2) → ℂ) (hα : Normalised α) :
    ∃ enc : (Fin k → ZMod 2) → List Gate, (∀ δ, encodingCircuit c c.n (bitsList δ) = .ok (enc δ)) ∧
      ((∃ rs φ φ', History (FreshStep c) (pauliAct e (∑ δ, α δ • run (enc δ) (ket 0))) (c.iter.map StabArg.bin) rs φ ∧
          History (FreshStep c) (pauliAct e' (∑ δ, α δ • run (enc δ) (ket 0))) (c.iter.map StabArg.bin) rs φ') ↔
        ∀ g ∈ c.iter, sympV (rowPauli c.n g).vec (e.vec + e'.vec) = 0) := by
  obtain ⟨enc, e1, e2⟩ := C62_syndrome s k c h hb hind hY e α hα
  obtain ⟨enc', e1', e3⟩ := C62_syndrome s k c h hb hind hY e' α hα
  have henc : enc' = enc := by
    funext δ
    have h1 := e1' δ
    rw [e1] at h1
    exact (Except.ok.inj h1).symm
  subst henc
  refine ⟨enc', e1, ?_⟩
  have hz : ∀ a b : ZMod 2, a + b = 0 ↔ a = b := by decide
  constructor
  · rintro ⟨rs, φ, φ', h1, h2⟩ g hg
    have a1 := ((e2 _ _).mp h1).1
    rw [((e3 _ _).mp h2).1, List.map_inj_left] at a1
    rw [sympV_add_right, hz]
    exact (a1 g hg).symm
  · intro hs
    refine ⟨_, _, _, (e2 _ _).mpr ⟨rfl, rfl⟩, (e3 _ _).mpr ⟨?_, rfl⟩⟩
    rw [List.map_inj_left]
    intro g hg
    have := hs g hg
    rw [sympV_add_right, hz] at this
    exact this

/-- **C63, partial**.  The two ways of encoding agree for an accepted code on `n > 0` qubits with independent generators,
each of X's only or of Z's only, whose normal form generates the group of the generators: the columns returned by
`encode_krauss_operators` and the states prepared by `encoding_circuit` span the same space.  Missing for C63: codes whose
normal form is relabelled (`C63_relabelling_refuted`) or carries signs (`C63_sign_refuted`). -/
theorem C63_encoders_agree_partial (eigh : Eigh) (hE : eigh.Correct) (s : StabInput) (n k : ℕ) (c : StabCode)
    (h : stabInit s n k none = .ok c) (hn : 0 < n) (hb : BinaryArr c.stab) (hind : Independent n c.stab)
    (hsame : groupOf n c.iter = groupOf n ((List.range c.stab.rows).map c.stab.row))
    (hcss : ∀ a < c.stab.rows, (rowPauli n (c.stab.row a)).x = 0 ∨ (rowPauli n (c.stab.row a)).z = 0) :
    ∃ (V : Arr ℂ) (enc : (Fin k → ZMod 2) → List Gate), encodeKraus eigh c = .ok V ∧ V.rows = 2 ^ n ∧ V.cols = 2 ^ k ∧
      (∀ δ, encodingCircuit c n (bitsList δ) = .ok (enc δ)) ∧
      ∀ ψ : Amp n, (∃ x : Fin (2 ^ k) → ℂ, ∀ a : Fin (2 ^ n), ψ (bitsOf n a) = ∑ j : Fin (2 ^ k), V.get a j * x j) ↔
        ∃ α : (Fin k → ZMod 2) → ℂ, ψ = ∑ δ, α δ • run (enc δ) (ket 0) := by
  have hY : ∀ a < c.stab.rows, parityY (rowPauli n (c.stab.row a)) = 0 := by
    intro a ha
    unfold parityY
    rcases hcss a ha with e | e <;> rw [e] <;> simp
  obtain ⟨V, m, v1, v2, v3, -, v5, -⟩ := C19_encoder_isometry eigh hE s n k none c h hn hb hY
  obtain ⟨V', w1, -, w3⟩ := C19_dimension eigh hE s n k c h hn hb hY hind
  rw [v1] at w1
  cases w1
  rw [v3] at w3
  subst w3
  obtain ⟨enc, e1, e2⟩ := C60_encoded_span s n k c h hb hind hY
  refine ⟨V, enc, v1, v2, v3, e1, fun ψ => ?_⟩
  rw [← v5, ← (e2 ψ).1]
  obtain ⟨hA, hcomA, -⟩ := stabInit_ok h
  have hc := initArray_cols hA
  have hz : ∀ p ∈ (List.range c.stab.rows).map c.stab.row, ∀ q ∈ (List.range c.stab.rows).map c.stab.row,
      dotp (rowPauli n p).z (rowPauli n q).x = 0 := by
    intro p hp q hq
    simp only [List.mem_map, List.mem_range] at hp hq
    obtain ⟨i, hi, rfl⟩ := hp
    obtain ⟨j, hj, rfl⟩ := hq
    have hs := hcomA i hi j hj
    rw [← rowPauli_row hc, ← rowPauli_row hc, sympV_vec] at hs
    unfold symp at hs
    rcases hcss i hi with e | e
    · rw [e, dotp_zero_left, zero_add] at hs; exact hs
    · rw [e, dotp_zero_left]
  have hzx := group_zx hz
  have hz' : ∀ p ∈ c.iter, ∀ q ∈ c.iter, dotp (rowPauli n p).z (rowPauli n q).x = 0 := by
    intro p hp q hq
    have m1 := mem_groupOf (n := n) hp
    have m2 := mem_groupOf (n := n) hq
    rw [hsame] at m1 m2
    exact hzx _ m1 _ m2
  constructor
  · intro hst g hg
    have m1 := mem_groupOf (n := n) hg
    rw [hsame] at m1
    have := group_fixed (ψ := ψ) hz (by
      intro g' hg'
      simp only [List.mem_map, List.mem_range] at hg'
      obtain ⟨i, hi, rfl⟩ := hg'
      exact hst i hi) _ m1
    rw [ofVec_vec] at this
    exact this
  · intro hit a ha
    have m1 := mem_groupOf (n := n) (rows := (List.range c.stab.rows).map c.stab.row) (List.mem_map_of_mem (List.mem_range.mpr ha))
    rw [← hsame] at m1
    have := group_fixed (ψ := ψ) hz' hit _ m1
    rw [ofVec_vec] at this
    exact this

/-- **C63 refuted (labels)**: the state encoded from `00` with the code of IXX is not in the span of the columns of
`encode_krauss_operators`, whatever eigenvectors the eigensolver returns. -/
theorem C63_relabelling_refuted (eigh : Eigh) (hE : eigh.Correct) :
    ∃ c V gs, stabInit (.rows [[0, 1, 1, 0, 0, 0]]) 3 2 none = .ok c ∧ encodeKraus eigh c = .ok V ∧
      encodingCircuit c 3 [0, 0] = .ok gs ∧
      ¬ ∃ x : Fin V.cols → ℂ, ∀ a : Fin (2 ^ 3), (run gs (ket 0) : Amp 3) (bitsOf 3 a) = ∑ j : Fin V.cols, V.get a j * x j := by
  obtain ⟨c, gs, h1, h2, h3, h4, h5, h6⟩ := C13_relabelling_refuted
  have hrows : c.stab.rows = 1 := by
    have := (C07_accepted_shape _ 3 2 c h1 h2 h3).1.rows
    obtain ⟨-, -, hst, -⟩ := accepted_facts h1 h2 h3
    omega
  have hY : ∀ a < c.stab.rows, parityY (rowPauli 3 (c.stab.row a)) = 0 := by
    intro a ha
    rw [hrows] at ha
    interval_cases a
    rw [h4]; decide
  obtain ⟨V, m, v1, v2, rfl, -, v5, -⟩ := C19_encoder_isometry eigh hE _ 3 2 none c h1 (by decide) h2 hY
  refine ⟨c, V, gs, h1, v1, h5, ?_⟩
  intro hx
  have := (v5 _).mpr hx 0 (by omega)
  exact h6 1 (by rw [this, one_smul])

/-- **C63 refuted (sign)**: for the code of XZII and YYYY no encoded basis state is in the span of the columns of
`encode_krauss_operators`. -/
theorem C63_sign_refuted (eigh : Eigh) (hE : eigh.Correct) :
    ∃ c V, stabInit (.rows [[1, 0, 0, 0, 0, 1, 0, 0], [1, 1, 1, 1, 1, 1, 1, 1]]) 4 2 none = .ok c ∧
      encodeKraus eigh c = .ok V ∧ ∀ δ : List ℤ, δ.length = 2 → IsBinary δ → ∃ gs, encodingCircuit c 4 δ = .ok gs ∧
      ¬ ∃ x : Fin V.cols → ℂ, ∀ a : Fin (2 ^ 4), (run gs (ket 0) : Amp 4) (bitsOf 4 a) = ∑ j : Fin V.cols, V.get a j * x j := by
  obtain ⟨c, h1, h2, h3, h4, h5⟩ := C13_sign_refuted
  obtain ⟨c', g1, -, -, -, g5, g6, g7, -⟩ := codeSign
  rw [h1] at g1
  cases g1
  have hY : ∀ a < c.stab.rows, parityY (rowPauli 4 (c.stab.row a)) = 0 := by
    intro a ha
    rw [g5] at ha
    match a, ha with
    | 0, _ => rw [g6]; decide
    | 1, _ => rw [g7]; decide
  obtain ⟨V, m, v1, v2, rfl, -, v5, -⟩ := C19_encoder_isometry eigh hE _ 4 2 none c h1 (by decide) h2 hY
  refine ⟨c, V, h1, v1, ?_⟩
  intro δ hl hδ
  obtain ⟨gs, k1, k2, k3⟩ := h5 δ hl hδ
  refine ⟨gs, k1, ?_⟩
  intro hx
  have := (v5 _).mpr hx 1 (by omega)
  rw [this] at k2
  apply k3
  funext b
  have hb := congrFun k2 b
  rw [Pi.neg_apply] at hb
  have h6 : (2 : ℂ) * (run gs (ket 0) : Amp 4) b = 0 := by linear_combination hb
  simpa using h6

/-- A concrete case for C59 - C63: the `[[4,2]]` code meets the hypotheses; the error XIII is undone by XIII and by IXXX
but not by IXII, although IXII has the same syndrome. -/
example : ∃ c, stabInit (.rows [[1, 1, 1, 1, 0, 0, 0, 0], [0, 0, 0, 0, 1, 1, 1, 1]]) c.n 2 none = .ok c ∧ c.n = 4 ∧
    BinaryArr c.stab ∧ Independent c.n c.stab ∧ (∀ a < c.stab.rows, parityY (rowPauli c.n (c.stab.row a)) = 0) ∧
    Normalised (ket 0 : (Fin 2 → ZMod 2) → ℂ) ∧
    (rowPauli 4 [1, 0, 0, 0, 0, 0, 0, 0]).vec + (rowPauli 4 [1, 0, 0, 0, 0, 0, 0, 0]).vec ∈ groupOf 4 c.iter ∧
    (rowPauli 4 [1, 0, 0, 0, 0, 0, 0, 0]).vec + (rowPauli 4 [0, 1, 1, 1, 0, 0, 0, 0]).vec ∈ groupOf 4 c.iter ∧
    (rowPauli 4 [1, 0, 0, 0, 0, 0, 0, 0]).vec + (rowPauli 4 [0, 1, 0, 0, 0, 0, 0, 0]).vec ∉ groupOf 4 c.iter ∧
    ∀ g ∈ c.iter, symp (rowPauli 4 g) (rowPauli 4 [1, 0, 0, 0, 0, 0, 0, 0]) =
      symp (rowPauli 4 g) (rowPauli 4 [0, 1, 0, 0, 0, 0, 0, 0]) := by
  obtain ⟨c, h1, h2, h3, -, h4, h5, h6, h7, h8, h9⟩ := code422
  have hn : c.n = 4 := (accepted_facts h1 h2 h3).1
  have hit : c.iter = [[1, 1, 1, 1, 0, 0, 0, 0], [0, 0, 0, 0, 1, 1, 1, 1]] := by
    unfold StabCode.iter
    rw [h7]
    simp only [List.range_succ, List.range_zero, List.nil_append, List.map_append, List.map_cons, List.map_nil]
    rw [h8, h9]; rfl
  refine ⟨c, by rw [hn]; exact h1, hn, h2, by rw [hn]; exact h3, ?_, ?_, ?_, ?_, ?_, ?_⟩
  · intro a ha
    rw [h4] at ha
    rw [hn]
    match a, ha with
    | 0, _ => rw [h5]; decide
    | 1, _ => rw [h6]; decide
  · apply normalised_of_braket
    rw [braket_ket, if_pos rfl]
  · have : (rowPauli 4 [1, 0, 0, 0, 0, 0, 0, 0]).vec + (rowPauli 4 [1, 0, 0, 0, 0, 0, 0, 0]).vec = 0 := by decide
    rw [this]; exact Submodule.zero_mem _
  · have : (rowPauli 4 [1, 0, 0, 0, 0, 0, 0, 0]).vec + (rowPauli 4 [0, 1, 1, 1, 0, 0, 0, 0]).vec =
        (rowPauli 4 [1, 1, 1, 1, 0, 0, 0, 0]).vec := by decide
    rw [this]
    exact mem_groupOf (by rw [hit]; simp)
  · intro hmem
    -- it anticommutes with ZIIZ, which commutes with the whole group
    have := symp_group (n := 4) (rows := c.iter) (v := (rowPauli 4 [0, 0, 0, 0, 1, 0, 0, 1]).vec) (by
      rw [hit]; decide) _ hmem
    revert this
    decide
  · rw [hit]; decide

end PyQ
