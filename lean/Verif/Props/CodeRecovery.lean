import Verif.Props.Undone
import Verif.Props.CodeInfo
import Verif.Props.Tables

/-! # C117: which noise any recovery at all can undo on a code -/

namespace PyQ

open Matrix Spec Module
open scoped ComplexOrder

section

variable {eigh : Eigh} {s : StabInput} {n k : ℕ} {c : StabCode}

/-- Sandwiches with an isometry, in vectors of its range. -/
theorem sandwich_iff {N M : ℕ} {V : Matrix (Fin N) (Fin M) ℂ} (hV : Vᴴ * V = 1) (A B : Matrix (Fin N) (Fin N) ℂ) (w : ℂ) :
    (A * V)ᴴ * (B * V) = w • 1 ↔
      ∀ u v : Fin M → ℂ, star (A *ᵥ (V *ᵥ u)) ⬝ᵥ (B *ᵥ (V *ᵥ v)) = w * (star (V *ᵥ u) ⬝ᵥ (V *ᵥ v)) := by
  have h1 : ∀ u v : Fin M → ℂ, star (A *ᵥ (V *ᵥ u)) ⬝ᵥ (B *ᵥ (V *ᵥ v)) = star u ⬝ᵥ (((A * V)ᴴ * (B * V)) *ᵥ v) := by
    intro u v
    rw [mulVec_mulVec, mulVec_mulVec, star_mulVec, ← dotProduct_mulVec, mulVec_mulVec]
  have h2 : ∀ u v : Fin M → ℂ, star (V *ᵥ u) ⬝ᵥ (V *ᵥ v) = star u ⬝ᵥ v := by
    intro u v
    rw [star_mulVec, ← dotProduct_mulVec, mulVec_mulVec, hV, one_mulVec]
  simp only [h1, h2]
  constructor
  · intro h u v
    rw [h, smul_mulVec, one_mulVec, dotProduct_smul, smul_eq_mul]
  · intro h
    ext i j
    have h3 := h (Pi.single i 1) (Pi.single j 1)
    rw [mulVec_single_one, ← Pi.single_star, star_one, single_one_dotProduct, single_one_dotProduct] at h3
    rw [Matrix.smul_apply, Matrix.one_apply, smul_eq_mul]
    refine h3.trans ?_
    rw [Pi.single_apply]

/-- **C117**, the conditions of Knill and Laflamme.  A channel object whose Kraus operators are the encoder of an accepted code
followed by operators `N i` of any kind: some channel undoes it exactly when for any two of the operators there is one number `w` with
`⟨N i x, N j y⟩ = w ⟨x, y⟩` for all states `x` and `y` that the generators fix. -/
theorem C117_conditions (hE : eigh.Correct) (h : stabInit s n k none = .ok c) (hn : 0 < n)
    (hb : BinaryArr c.stab) (hY : ∀ i < c.stab.rows, parityY (rowPauli n (c.stab.row i)) = 0) (hind : Independent n c.stab)
    {V : Arr ℂ} (hV : encodeKraus eigh c = .ok V) {sp : Bool} {ops : Arr3 ℂ} {orth : List ℕ} {o : KrausObj} {L : ℕ}
    (hL : ops.len = L) (N : Fin L → Matrix (Fin (2 ^ n)) (Fin (2 ^ n)) ℂ)
    (hops : ∀ i, ops.ops L (2 ^ n) (2 ^ k) i = N i * V.mat (2 ^ n) (2 ^ k))
    (htp : TracePreserving (ops.ops L (2 ^ n) (2 ^ k)))
    (ho : QChan.init sp ops k n 2 2 orth = .ok o) (calls : List QChan.Call)
    (hsafe : SafeUses sp (calls.map QChan.Call.uses ++ [1])) :
    CanBeUndone (QChan.history o calls) (2 ^ n) (2 ^ k) 1 ↔
      ∀ i j, ∃ w : ℂ, ∀ x y : Fin (2 ^ n) → ℂ, (∀ t < c.stab.rows, pauliN (rowPauli n (c.stab.row t)) *ᵥ x = x) →
        (∀ t < c.stab.rows, pauliN (rowPauli n (c.stab.row t)) *ᵥ y = y) →
        star (N i *ᵥ x) ⬝ᵥ (N j *ᵥ y) = w * (star x ⬝ᵥ y) := by
  subst hL
  have henc := encoder_codeEnc hE h hn hb hY hind hV
  have h1 := undone_ops ho htp (by positivity) calls 1 hsafe
  rw [products_pow _ htp (by positivity) le_rfl] at h1
  simp only [pow_one] at h1
  rw [h1]
  refine forall_congr' fun i => forall_congr' fun j => exists_congr fun w => ?_
  rw [hops, hops, sandwich_iff henc.iso]
  have hfix : ∀ u : Fin (2 ^ k) → ℂ, ∀ t < c.stab.rows,
      pauliN (rowPauli n (c.stab.row t)) *ᵥ (V.mat (2 ^ n) (2 ^ k) *ᵥ u) = V.mat (2 ^ n) (2 ^ k) *ᵥ u := by
    intro u t ht
    rw [mulVec_mulVec, henc.fixed ⟨t, ht⟩]
  constructor
  · intro hh x y hx hy
    obtain ⟨u, rfl⟩ := henc.all x fun t => hx t t.2
    obtain ⟨v, rfl⟩ := henc.all y fun t => hy t t.2
    exact hh u v
  · intro hh u v
    exact hh _ _ (hfix u) (hfix v)

/-- **C117**.  Pauli errors: some channel undoes the encoder followed by the errors exactly when any two of the errors that can occur
and have the same syndrome differ by a product of generators. -/
theorem C117_pauli (hE : eigh.Correct) (h : stabInit s n k none = .ok c) (hn : 0 < n)
    (hb : BinaryArr c.stab) (hY : ∀ i < c.stab.rows, parityY (rowPauli n (c.stab.row i)) = 0) (hind : Independent n c.stab)
    {V : Arr ℂ} (hV : encodeKraus eigh c = .ok V) {sp : Bool} {ops : Arr3 ℂ} {orth : List ℕ} {o : KrausObj} {L : ℕ}
    (hL : ops.len = L) (a : Fin L → ℂ) (p : Fin L → Pauli n) (ha : ∑ i, Complex.normSq (a i) = 1)
    (hops : ∀ i, ops.ops L (2 ^ n) (2 ^ k) i = a i • (pauliN (p i) * V.mat (2 ^ n) (2 ^ k)))
    (ho : QChan.init sp ops k n 2 2 orth = .ok o) (calls : List QChan.Call)
    (hsafe : SafeUses sp (calls.map QChan.Call.uses ++ [1])) :
    CanBeUndone (QChan.history o calls) (2 ^ n) (2 ^ k) 1 ↔
      ∀ i j, a i ≠ 0 → a j ≠ 0 → SameSyndrome c.stab.rowList (p i) (p j) → SameClass c.stab.rowList (p i) (p j) := by
  subst hL
  have henc := encoder_codeEnc hE h hn hb hY hind hV
  have htp : TracePreserving (ops.ops ops.len (2 ^ n) (2 ^ k)) := by
    unfold TracePreserving
    rw [show ops.ops ops.len (2 ^ n) (2 ^ k) = _ from funext hops]
    exact encoded_tp henc.iso p ha
  have h1 := undone_ops ho htp (by positivity) calls 1 hsafe
  rw [products_pow _ htp (by positivity) le_rfl] at h1
  simp only [pow_one] at h1
  rw [h1]
  refine forall_congr' fun i => forall_congr' fun j => ?_
  obtain ⟨u, hu⟩ := pauliN_adjoint_mul (p i) (p j)
  have hv : ((p i).add (p j)).vec = (p i).vec + (p j).vec := rfl
  have hprod : (ops.ops ops.len (2 ^ n) (2 ^ k) i)ᴴ * ops.ops ops.len (2 ^ n) (2 ^ k) j =
      (star (a i) * a j * sgn u) • ((V.mat (2 ^ n) (2 ^ k))ᴴ * (pauliN ((p i).add (p j)) * V.mat (2 ^ n) (2 ^ k))) := by
    rw [hops, hops, conjTranspose_smul, Matrix.smul_mul, Matrix.mul_smul, conjTranspose_mul, Matrix.mul_assoc,
      ← Matrix.mul_assoc (pauliN (p i))ᴴ, hu, Matrix.smul_mul, Matrix.mul_smul, smul_smul, smul_smul]
  have hsyn : SameSyndrome c.stab.rowList (p i) (p j) ↔ ∀ t : Fin c.stab.rows, symp (rowPauli n (c.stab.row t)) ((p i).add (p j)) = 0 := by
    rw [sameSyndrome_rowList]
    refine forall_congr' fun t => ?_
    rw [← sympV_vec (rowPauli n (c.stab.row t)) ((p i).add (p j)), hv, sympV_add_right, sympV_vec, sympV_vec]
    exact (by decide : ∀ x y : ZMod 2, x = y ↔ x + y = 0) _ _
  have hcls : SameClass c.stab.rowList (p i) (p j) ↔ ((p i).add (p j)).vec ∈ Submodule.span (ZMod 2)
      (Set.range fun t : Fin c.stab.rows => (rowPauli n (c.stab.row t)).vec) := by
    unfold SameClass
    rw [groupOf_rowList, hv]
  rw [hprod, hsyn, hcls]
  have hsg : (sgn u : ℂ) ≠ 0 := by rcases zmod2_cases u with h0 | h0 <;> simp [h0]
  constructor
  · rintro ⟨w, hw⟩ hi hj hs
    by_contra hno
    have ht := congrArg trace hw
    rw [trace_smul, henc.trace_zero hno, smul_zero, trace_smul, trace_one, Fintype.card_fin, smul_eq_mul] at ht
    have hw0 : w = 0 := by
      rcases mul_eq_zero.mp ht.symm with h0 | h0
      · exact h0
      · exact absurd h0 (by simp)
    rw [hw0, zero_smul] at hw
    have hz : (V.mat (2 ^ n) (2 ^ k))ᴴ * (pauliN ((p i).add (p j)) * V.mat (2 ^ n) (2 ^ k)) = 0 := by
      rcases smul_eq_zero.mp hw with h0 | h0
      · exact absurd h0 (mul_ne_zero (mul_ne_zero (star_ne_zero.mpr hi) hj) hsg)
      · exact h0
    have hone := (henc.inside hs).2
    rw [hz, Matrix.mul_zero] at hone
    have : Nonempty (Fin (2 ^ k)) := ⟨⟨0, by positivity⟩⟩
    exact zero_ne_one hone
  · intro hh
    by_cases hi : a i = 0
    · exact ⟨0, by rw [hi, star_zero, zero_mul, zero_mul, zero_smul, zero_smul]⟩
    by_cases hj : a j = 0
    · exact ⟨0, by rw [hj, mul_zero, zero_mul, zero_smul, zero_smul]⟩
    by_cases hs : ∀ t : Fin c.stab.rows, symp (rowPauli n (c.stab.row t)) ((p i).add (p j)) = 0
    · obtain ⟨u', hu'⟩ := henc.group (hh hi hj hs)
      refine ⟨star (a i) * a j * sgn u * sgn u', ?_⟩
      rw [hu', Matrix.mul_smul, henc.iso, smul_smul]
    · push Not at hs
      obtain ⟨t, ht⟩ := hs
      exact ⟨0, by rw [henc.anti (g := fun t : Fin c.stab.rows => rowPauli n (c.stab.row t)) ht, smul_zero, zero_smul]⟩

/-- **C117**.  Errors of any kind: if each operator is a combination of Pauli operators of which any two with the same syndrome differ by
a product of generators, then some channel undoes the encoder followed by them. -/
theorem C117_combinations (hE : eigh.Correct) (h : stabInit s n k none = .ok c) (hn : 0 < n)
    (hb : BinaryArr c.stab) (hY : ∀ i < c.stab.rows, parityY (rowPauli n (c.stab.row i)) = 0) (hind : Independent n c.stab)
    {V : Arr ℂ} (hV : encodeKraus eigh c = .ok V) {sp : Bool} {ops : Arr3 ℂ} {orth : List ℕ} {o : KrausObj} {L : ℕ}
    (hL : ops.len = L) {T : ℕ} (p : Fin T → Pauli n)
    (hp : ∀ i j, SameSyndrome c.stab.rowList (p i) (p j) → SameClass c.stab.rowList (p i) (p j))
    (b : Fin L → Fin T → ℂ) (hops : ∀ i, ops.ops L (2 ^ n) (2 ^ k) i = (∑ t, b i t • pauliN (p t)) * V.mat (2 ^ n) (2 ^ k))
    (htp : TracePreserving (ops.ops L (2 ^ n) (2 ^ k)))
    (ho : QChan.init sp ops k n 2 2 orth = .ok o) (calls : List QChan.Call)
    (hsafe : SafeUses sp (calls.map QChan.Call.uses ++ [1])) :
    CanBeUndone (QChan.history o calls) (2 ^ n) (2 ^ k) 1 := by
  subst hL
  have henc := encoder_codeEnc hE h hn hb hY hind hV
  have h1 := undone_ops ho htp (by positivity) calls 1 hsafe
  rw [products_pow _ htp (by positivity) le_rfl] at h1
  simp only [pow_one] at h1
  rw [h1]
  have hcond : ∀ t t', ∃ w : ℂ, (pauliN (p t) * V.mat (2 ^ n) (2 ^ k))ᴴ * (pauliN (p t') * V.mat (2 ^ n) (2 ^ k)) = w • 1 := by
    intro t t'
    obtain ⟨u, hu⟩ := pauliN_adjoint_mul (p t) (p t')
    rw [conjTranspose_mul, Matrix.mul_assoc, ← Matrix.mul_assoc (pauliN (p t))ᴴ, hu, Matrix.smul_mul, Matrix.mul_smul]
    by_cases hs : SameSyndrome c.stab.rowList (p t) (p t')
    · have hc := hp t t' hs
      unfold SameClass at hc
      rw [groupOf_rowList] at hc
      obtain ⟨u', hu'⟩ := henc.group (q := (p t).add (p t')) hc
      exact ⟨sgn u * sgn u', by rw [hu', Matrix.mul_smul, henc.iso, smul_smul]⟩
    · rw [sameSyndrome_rowList] at hs
      push Not at hs
      obtain ⟨l, hl⟩ := hs
      refine ⟨0, ?_⟩
      rw [henc.anti (g := fun t : Fin c.stab.rows => rowPauli n (c.stab.row t)) (i := l) ?_, smul_zero, zero_smul]
      intro h0
      rw [← sympV_vec (rowPauli n (c.stab.row l)) ((p t).add (p t')), show ((p t).add (p t')).vec = (p t).vec + (p t').vec from rfl,
        sympV_add_right, sympV_vec, sympV_vec] at h0
      exact hl ((by decide : ∀ x y : ZMod 2, x + y = 0 → x = y) _ _ h0)
  choose w hw using hcond
  intro i j
  refine ⟨∑ t, ∑ t', star (b i t) * b j t' * w t t', ?_⟩
  rw [hops, hops, Matrix.sum_mul, Matrix.sum_mul, conjTranspose_sum, Matrix.sum_mul, Finset.sum_smul]
  refine Finset.sum_congr rfl fun t _ => ?_
  rw [Matrix.mul_sum, Finset.sum_smul]
  refine Finset.sum_congr rfl fun t' _ => ?_
  rw [Matrix.smul_mul, Matrix.smul_mul, conjTranspose_smul, Matrix.smul_mul, Matrix.mul_smul, hw, smul_smul, smul_smul, mul_assoc]

/-- Having the same syndrome, in terms of the group. -/
theorem sameSyndrome_group (rows : List (List ℤ)) (p p' : Pauli n) :
    SameSyndrome rows p p' ↔ ∀ v ∈ groupOf n rows, sympV v (p.vec + p'.vec) = 0 := by
  have hz : ∀ x y : ZMod 2, x = y ↔ x + y = 0 := by decide
  constructor
  · intro hs v hv
    unfold groupOf at hv
    induction hv using Submodule.span_induction with
    | mem x hx =>
      obtain ⟨r, hr, rfl⟩ := hx
      rw [sympV_add_right, sympV_vec, sympV_vec]
      exact (hz _ _).mp (hs r hr)
    | zero => exact sympV_zero_left _
    | add x y _ _ hx hy => rw [sympV_add_left, hx, hy, add_zero]
    | smul a x _ hx => rw [sympV_smul_left, hx, mul_zero]
  · intro hh g hg
    have := hh _ (Submodule.subset_span ⟨g, hg, rfl⟩)
    rw [sympV_add_right, sympV_vec, sympV_vec] at this
    exact (hz _ _).mpr this

end

/-- **C117**.  For Pauli noise the circuits of the library do as well as any recovery: there is one relabelling of the qubits, the one
between the generators and the rows of the normal form, such that the encoder followed by the errors can be undone by some channel
exactly when some table of corrections undoes the relabelled errors that can occur after `encoding_circuit`. -/
theorem C117_table {eigh : Eigh} {s : StabInput} {k : ℕ} {c : StabCode} (hE : eigh.Correct) (h : stabInit s c.n k none = .ok c)
    (hn : 0 < c.n) (hb : BinaryArr c.stab) (hY : ∀ i < c.stab.rows, parityY (rowPauli c.n (c.stab.row i)) = 0)
    (hind : Independent c.n c.stab) {V : Arr ℂ} (hV : encodeKraus eigh c = .ok V) :
    ∃ σ : Equiv.Perm (Fin c.n), groupOf c.n c.iter = (groupOf c.n c.stab.rowList).map (relabel σ).toLinearMap ∧
      ∀ {sp : Bool} {ops : Arr3 ℂ} {orth : List ℕ} {o : KrausObj} {L : ℕ} (_ : ops.len = L) (a : Fin L → ℂ) (p : Fin L → Pauli c.n)
        (_ : ∑ i, Complex.normSq (a i) = 1)
        (_ : ∀ i, ops.ops L (2 ^ c.n) (2 ^ k) i = a i • (pauliN (p i) * V.mat (2 ^ c.n) (2 ^ k)))
        (_ : QChan.init sp ops k c.n 2 2 orth = .ok o) (calls : List QChan.Call)
        (_ : SafeUses sp (calls.map QChan.Call.uses ++ [1])),
        CanBeUndone (QChan.history o calls) (2 ^ c.n) (2 ^ k) 1 ↔
          ∃ table, TableFor c.n table ∧ Undoes c k {e | ∃ i, a i ≠ 0 ∧ e = pauliRow (ofVec (relabel σ (p i).vec))} table := by
  obtain ⟨⟨σ, hσ⟩, -⟩ := C06_normal_form_same_group s c.n k none c h
  refine ⟨σ, hσ, ?_⟩
  intro sp ops orth o L hL a p ha hops ho calls hsafe
  rw [C117_pauli hE h hn hb hY hind hV hL a p ha hops ho calls hsafe]
  have h73 := C73_correctable s k c h hb hind hY {e | ∃ i, a i ≠ 0 ∧ e = pauliRow (ofVec (relabel σ (p i).vec))} (by
    rintro e ⟨i, -, rfl⟩
    exact ⟨(pauliRow_spec _).1, (pauliRow_spec _).2.1⟩)
  unfold TableFor
  rw [h73]
  have hsyn : ∀ i j, SameSyndrome c.iter (ofVec (relabel σ (p i).vec)) (ofVec (relabel σ (p j).vec)) ↔
      SameSyndrome c.stab.rowList (p i) (p j) := by
    intro i j
    rw [sameSyndrome_group, sameSyndrome_group, hσ]
    have he : (ofVec (relabel σ (p i).vec)).vec + (ofVec (relabel σ (p j).vec)).vec = relabel σ ((p i).vec + (p j).vec) := rfl
    rw [he]
    constructor
    · intro hh v hv
      rw [← sympV_relabel σ]
      exact hh _ ⟨v, hv, rfl⟩
    · rintro hh _ ⟨v, hv, rfl⟩
      exact (sympV_relabel σ v _).trans (hh v hv)
  have hcls : ∀ i j, (ofVec (relabel σ (p i).vec)).vec + (ofVec (relabel σ (p j).vec)).vec ∈ groupOf c.n c.iter ↔
      SameClass c.stab.rowList (p i) (p j) := by
    intro i j
    have he : (ofVec (relabel σ (p i).vec)).vec + (ofVec (relabel σ (p j).vec)).vec = relabel σ ((p i).vec + (p j).vec) := rfl
    rw [he, hσ]
    constructor
    · rintro ⟨v, hv, hv'⟩
      rw [show v = _ from (relabel σ).injective hv'] at hv
      exact hv
    · intro hh
      exact ⟨_, hh, rfl⟩
  constructor
  · rintro hh e ⟨i, hi, rfl⟩ e' ⟨j, hj, rfl⟩ hs
    rw [(pauliRow_spec _).2.2, (pauliRow_spec _).2.2] at hs ⊢
    exact (hcls i j).mpr (hh i j hi hj ((hsyn i j).mp hs))
  · intro hh i j hi hj hs
    have := hh _ ⟨i, hi, rfl⟩ _ ⟨j, hj, rfl⟩ (by
      rw [(pauliRow_spec _).2.2, (pauliRow_spec _).2.2]
      exact (hsyn i j).mpr hs)
    rw [(pauliRow_spec _).2.2, (pauliRow_spec _).2.2] at this
    exact (hcls i j).mp this

/-! ### Witnesses -/

/-- The hypotheses of `C117_conditions`, `C117_pauli` and `C117_combinations` hold for the phase flip code with four errors of
probability 1/4 each: no flip and a flip on one of the three qubits can be undone; a flip on the first qubit together with flips on
the two others cannot. -/
theorem C117_phase_flip (p : Fin 4 → Pauli 3) : ∃ eigh c V o, eigh.Correct ∧
    stabInit (.rows [[1, 1, 0, 0, 0, 0], [0, 1, 1, 0, 0, 0]]) 3 1 none = .ok c ∧ encodeKraus eigh c = .ok V ∧
    QChan.init false (opsArr fun i : Fin 4 => (1 / 2 : ℂ) • (pauliN (p i) * V.mat (2 ^ 3) (2 ^ 1))) 1 3 2 2 [] = .ok o ∧
    (p = ![⟨0, 0⟩, ⟨0, ![1, 0, 0]⟩, ⟨0, ![0, 1, 0]⟩, ⟨0, ![0, 0, 1]⟩] → CanBeUndone o (2 ^ 3) (2 ^ 1) 1) ∧
    (p = ![⟨0, 0⟩, ⟨0, ![1, 0, 0]⟩, ⟨0, ![0, 1, 0]⟩, ⟨0, ![0, 1, 1]⟩] → ¬ CanBeUndone o (2 ^ 3) (2 ^ 1) 1) := by
  obtain ⟨c, h1, h2, h3, h4, h5⟩ := codePhase_facts
  obtain ⟨eigh, hE⟩ := exists_eigh
  obtain ⟨V, v1, -, -⟩ := C19_dimension eigh hE _ 3 1 c h1 (by decide) h2 h4 h3
  have henc := encoder_codeEnc hE h1 (by decide) h2 h4 h3 v1
  have ha : ∑ _i : Fin 4, Complex.normSq (1 / 2 : ℂ) = 1 := by
    rw [Finset.sum_const, Finset.card_univ, Fintype.card_fin, Complex.normSq_div]
    norm_num
  have htp := encoded_tp henc.iso p ha
  obtain ⟨o, ho⟩ := init_exact false (opsArr fun i : Fin 4 => (1 / 2 : ℂ) • (pauliN (p i) * V.mat (2 ^ 3) (2 ^ 1))) 1 3 2 2 []
    (by show 0 < 4; decide) rfl rfl (by
      show TracePreserving ((opsArr _).ops 4 (2 ^ 3) (2 ^ 1))
      rw [opsArr_ops]
      exact htp)
  have hiff := C117_pauli hE h1 (by decide) h2 h4 h3 v1 (L := 4) rfl (fun _ => 1 / 2) p ha (fun i => by rw [opsArr_ops]) ho []
    ⟨by simp, by simp⟩
  rw [show QChan.history o [] = o from rfl] at hiff
  refine ⟨eigh, c, V, o, hE, h1, v1, ho, ?_, ?_⟩
  · rintro rfl
    refine hiff.mpr ?_
    rw [h5]
    intro i j _ _ hs
    have hd : ∀ i j : Fin 4, (∀ g ∈ ([[1, 1, 0, 0, 0, 0], [0, 1, 1, 0, 0, 0]] : List (List ℤ)),
        symp (rowPauli 3 g) ((![⟨0, 0⟩, ⟨0, ![1, 0, 0]⟩, ⟨0, ![0, 1, 0]⟩, ⟨0, ![0, 0, 1]⟩] : Fin 4 → Pauli 3) i) =
          symp (rowPauli 3 g) ((![⟨0, 0⟩, ⟨0, ![1, 0, 0]⟩, ⟨0, ![0, 1, 0]⟩, ⟨0, ![0, 0, 1]⟩] : Fin 4 → Pauli 3) j)) → i = j := by decide
    obtain rfl := hd i j hs
    show Pauli.vec _ + Pauli.vec _ ∈ _
    rw [bvec_add_self]
    exact Submodule.zero_mem _
  · rintro rfl hh
    have h6 := hiff.mp hh 1 3 (by norm_num) (by norm_num)
    rw [h5] at h6
    have h7 := h6 (by unfold SameSyndrome; decide)
    unfold SameClass groupOf at h7
    have h8 : ∀ v ∈ Submodule.span (ZMod 2) {v | ∃ r ∈ ([[1, 1, 0, 0, 0, 0], [0, 1, 1, 0, 0, 0]] : List (List ℤ)),
        v = (rowPauli 3 r).vec}, v.2 = 0 := by
      intro v hv
      induction hv using Submodule.span_induction with
      | mem x hx =>
        obtain ⟨r, hr, rfl⟩ := hx
        simp only [List.mem_cons, List.not_mem_nil, or_false] at hr
        rcases hr with rfl | rfl <;> decide
      | zero => rfl
      | add x y _ _ hx hy => rw [Prod.snd_add, hx, hy, add_zero]
      | smul a x _ hx => rw [Prod.smul_snd, hx, smul_zero]
    have h9 := congrFun (h8 _ h7) 0
    revert h9
    decide

end PyQ
