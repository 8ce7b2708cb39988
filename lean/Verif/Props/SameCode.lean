import Verif.Props.Cleaning
import Verif.Props.Tables
import Verif.Lemmas.Pivots
import Verif.Spec.Relabel
import Verif.Lemmas.Examples

/-! # C124: other generators of the same group -/

namespace PyQ

open Spec Module

variable {n k : ℕ}

/-! ### Relabelling -/

theorem dotp_comp (σ : Equiv.Perm (Fin n)) (a b : Fin n → ZMod 2) : dotp (a ∘ σ) b = dotp a (b ∘ σ.symm) := by
  unfold dotp
  rw [← Equiv.sum_comp σ fun j => a j * (b ∘ σ.symm) j]
  simp

theorem pauliAct_eval (p : Pauli n) (ψ : Amp n) (b : Fin n → ZMod 2) :
    pauliAct p ψ b = sgn (dotp p.z (b + p.x)) * ψ (b + p.x) := by
  unfold pauliAct Matrix.mulVec dotProduct
  have hb : b + p.x + p.x = b := by rw [add_assoc, add_self_f, add_zero]
  rw [Finset.sum_eq_single (b + p.x)]
  · simp [pauliMatrix, hb]
  · intro d _ hd
    have : ¬ b = d + p.x := fun h => hd (by rw [h, add_assoc, add_self_f, add_zero])
    simp [pauliMatrix, this]
  · simp

theorem permute_act (σ : Equiv.Perm (Fin n)) (v : BVec n) (ψ : Amp n) :
    pauliAct (ofVec (relabel σ v)) (permuteQubits σ ψ) = permuteQubits σ (pauliAct (ofVec v) ψ) := by
  funext b
  have e : (b + v.1 ∘ σ) ∘ σ.symm = b ∘ σ.symm + v.1 := by
    funext j; simp
  rw [pauliAct_eval]
  show sgn (dotp (v.2 ∘ σ) (b + v.1 ∘ σ)) * ψ ((b + v.1 ∘ σ) ∘ σ.symm) = pauliAct (ofVec v) ψ (b ∘ σ.symm)
  rw [pauliAct_eval, dotp_comp, e]
  rfl

theorem permute_smul (σ : Equiv.Perm (Fin n)) (a : ℂ) (ψ : Amp n) : permuteQubits σ (a • ψ) = a • permuteQubits σ ψ := rfl

theorem permute_symm (σ : Equiv.Perm (Fin n)) (ψ : Amp n) : permuteQubits σ.symm (permuteQubits σ ψ) = ψ := by
  funext b
  show ψ ((b ∘ σ) ∘ σ.symm) = ψ b
  congr 1
  funext j
  simp

theorem permute_ne_zero (σ : Equiv.Perm (Fin n)) {ψ : Amp n} (h : ψ ≠ 0) : permuteQubits σ ψ ≠ 0 := by
  intro h0
  apply h
  rw [← permute_symm σ ψ, h0]
  rfl

theorem pauliAct_self' (p : Pauli n) (ψ : Amp n) : pauliAct p (pauliAct p ψ) = (sgn (dotp p.z p.x) : ℂ) • ψ := by
  have hz : p.add p = ⟨0, 0⟩ := by simp [Pauli.add, add_self_f]
  rw [pauliAct_comp, hz, pauliAct_one]

/-- The span of the encoded states. -/
def Encoded (c : StabCode) (n k : ℕ) (ψ : Amp n) : Prop :=
  ∃ enc : (Fin k → ZMod 2) → List Gate, (∀ δ, encodingCircuit c n (bitsList δ) = .ok (enc δ)) ∧
    ∃ α : (Fin k → ZMod 2) → ℂ, ψ = ∑ δ, α δ • run (enc δ) (ket 0)

section
variable {s : StabInput} {c : StabCode}

theorem encoded_iff (h : stabInit s n k none = .ok c) (hb : BinaryArr c.stab) (hind : Independent n c.stab)
    (hY : ∀ a < c.stab.rows, parityY (rowPauli n (c.stab.row a)) = 0) (ψ : Amp n) :
    Encoded c n k ψ ↔ ∀ g ∈ c.iter, pauliAct (rowPauli n g) ψ = ψ := by
  obtain ⟨enc, e1, e2⟩ := C60_encoded_span s n k c h hb hind hY
  rw [(e2 ψ).1]
  constructor
  · rintro ⟨enc', e1', α, hα⟩
    obtain rfl : enc' = enc := by
      funext δ
      have h1 := e1' δ
      rw [e1] at h1
      exact (Except.ok.inj h1).symm
    exact ⟨α, hα⟩
  · rintro ⟨α, hα⟩
    exact ⟨enc, e1, α, hα⟩

theorem encoded_exists (h : stabInit s n k none = .ok c) (hb : BinaryArr c.stab) (hind : Independent n c.stab)
    (hY : ∀ a < c.stab.rows, parityY (rowPauli n (c.stab.row a)) = 0) :
    ∃ ψ : Amp n, ψ ≠ 0 ∧ ∀ g ∈ c.iter, pauliAct (rowPauli n g) ψ = ψ := by
  obtain ⟨gs, g1, g2⟩ := C13_even_generators_rows_fix s n k c h hb hind hY (bitsList (0 : Fin k → ZMod 2)) (bitsList_length _)
    (bitsList_binary _)
  exact ⟨_, encoded_ne_zero h hb hind (bitsList_length _) (bitsList_binary _) g1, g2⟩

/-- If a Pauli operator acts as one number on the code it is in the group. -/
theorem fixed_mem (h : stabInit s n k none = .ok c) (hb : BinaryArr c.stab) (hind : Independent n c.stab)
    (hY : ∀ a < c.stab.rows, parityY (rowPauli n (c.stab.row a)) = 0) (p : Pauli n)
    (hp : ∀ ψ : Amp n, Encoded c n k ψ → pauliAct p ψ = ψ) : p.vec ∈ groupOf n c.iter := by
  obtain ⟨r1, r2, r3⟩ := pauliRow_spec p
  obtain ⟨z1, z2, z3⟩ := pauliRow_spec (⟨0, 0⟩ : Pauli n)
  obtain ⟨enc, corr, -, e1, e2, -, e4, -⟩ := C61_correction s n k c h hb hind hY (pauliRow p) _ z1 z2
  obtain ⟨gs, t, f1, -, -, f4⟩ := C48_apply_stabilizer n _ z1 z2
  rw [f1] at e2
  cases e2
  have := e4.mp ⟨Complex.I ^ (t.count 'Y'), fun α => by
    rw [f4, r3, hp _ ⟨enc, e1, α, rfl⟩, z3, pauliAct_one]⟩
  rw [r3, z3] at this
  have e0 : (⟨0, 0⟩ : Pauli n).vec = 0 := rfl
  rwa [e0, add_zero] at this

end

/-- Two lists with groups that differ by a relabelling only. -/
theorem supports_relabel (σ : Equiv.Perm (Fin n)) (S : Submodule (ZMod 2) (BVec n)) (T : Finset (Fin n)) :
    (sympB n).orthogonal (S.map (relabel σ).toLinearMap) ⊓ supported (T.map σ.symm.toEmbedding) ≤ S.map (relabel σ).toLinearMap ↔
      (sympB n).orthogonal S ⊓ supported T ≤ S := by
  have h1 : ∀ v : BVec n, relabel σ v ∈ S.map (relabel σ).toLinearMap ↔ v ∈ S := by
    intro v
    constructor
    · rintro ⟨w, hw, he⟩
      have : w = v := (relabel σ).injective he
      exact this ▸ hw
    · intro hv; exact ⟨v, hv, rfl⟩
  have h2 : ∀ v : BVec n, relabel σ v ∈ (sympB n).orthogonal (S.map (relabel σ).toLinearMap) ↔ v ∈ (sympB n).orthogonal S := by
    intro v
    simp only [mem_orth]
    constructor
    · intro h s hs
      rw [← sympV_relabel σ]
      exact h _ ⟨s, hs, rfl⟩
    · rintro h _ ⟨s, hs, rfl⟩
      rw [LinearEquiv.coe_coe, sympV_relabel]
      exact h s hs
  have h3 : ∀ v : BVec n, relabel σ v ∈ supported (T.map σ.symm.toEmbedding) ↔ v ∈ supported T := by
    intro v
    constructor
    · intro h j hj
      have := h (σ.symm j) (by simpa using hj)
      simpa [relabel] using this
    · intro h j hj
      have := h (σ j) (by
        intro hm
        apply hj
        rw [Finset.mem_map]
        exact ⟨σ j, hm, by simp⟩)
      simpa [relabel] using this
  constructor
  · rintro h v ⟨a, b⟩
    exact (h1 v).mp (h ⟨(h2 v).mpr a, (h3 v).mpr b⟩)
  · rintro h w ⟨a, b⟩
    obtain ⟨v, rfl⟩ := (relabel σ).surjective w
    exact (h1 v).mpr (h ⟨(h2 v).mp a, (h3 v).mp b⟩)

/-- The rows of the second normal form fix what those of the first fix, with the qubits in another order. -/
theorem fixed_follow {B B' nf nf' : Arr ℤ} {r : ℕ} (h : Inv2 n r B) (h' : Inv2 n r B') (hr : r ≤ n)
    (hsh : NormalShape n k r nf) (hsh' : NormalShape n k r nf') (hs : rowSpan n B = rowSpan n B') (hrr : r ≤ B.rows) (hrr' : r ≤ B'.rows)
    {σ σ' : Equiv.Perm (Fin n)} (h1 : rowSpan n nf = (rowSpan n B).map (relabel σ).toLinearMap)
    (h2 : ∀ i < r, rowVec n nf i = relabel σ (rowVec n B i)) (h1' : rowSpan n nf' = (rowSpan n B').map (relabel σ').toLinearMap)
    (h2' : ∀ i < r, rowVec n nf' i = relabel σ' (rowVec n B' i)) {ψ : Amp n}
    (hψ : ∀ i < nf.rows, pauliAct (ofVec (rowVec n nf i)) ψ = ψ) :
    ∀ i < nf'.rows, pauliAct (ofVec (rowVec n nf' i)) (permuteQubits (σ'.trans σ.symm) ψ) = permuteQubits (σ'.trans σ.symm) ψ := by
  have hcomp : ∀ v : BVec n, relabel σ' v = relabel (σ'.trans σ.symm) (relabel σ v) := by
    intro v
    ext j <;> simp [relabel]
  intro i hi
  by_cases hir : i < r
  · obtain ⟨z, hz, hz0, he⟩ := firstRows_agree h h' hr hrr hrr' hs hir
    rw [h2' i hir, he, hcomp, permute_act, map_add, ← h2 i hir]
    have hfix : pauliAct (ofVec (relabel σ z)) ψ = ψ :=
      zType_fixes hsh hr hψ (by rw [h1]; exact ⟨z, hz, rfl⟩) (by
        show z.1 ∘ σ = 0
        rw [hz0]; rfl)
    have := pauliAct_comp (ofVec (rowVec n nf i)) (ofVec (relabel σ z)) ψ
    rw [hfix, hψ i (by have := hsh.rank_le; omega), show (ofVec (relabel σ z)).x = 0 from (by
        show z.1 ∘ σ = 0
        rw [hz0]; rfl), dotp_zero_right, sgn_zero, one_smul] at this
    congr 1
    exact this.symm
  · have hm := rowVec_mem (n := n) nf' hi
    rw [h1', ← hs] at hm
    obtain ⟨v, hv, hve⟩ := hm
    rw [← hve, LinearEquiv.coe_coe, hcomp, permute_act]
    congr 1
    refine zType_fixes hsh hr hψ (by rw [h1]; exact ⟨v, hv, rfl⟩) ?_
    have h3 : (relabel σ' v).1 = 0 := by
      rw [LinearEquiv.coe_coe] at hve
      rw [hve]
      funext c
      show ((nf'.get i c : ℤ) : ZMod 2) = 0
      rw [hsh'.lowerX i (by omega) hi c c.2]; simp
    have h4 : v.1 = 0 := by
      funext j
      have := congrFun h3 (σ'.symm j)
      simpa [relabel] using this
    show v.1 ∘ σ = 0
    rw [h4]; rfl

/-- **C124, partial**.  Two inputs that generate the same group (up to phases), both accepted, both of independent generators with
even numbers of `Y`s: the encoded states of one are those of the other with the qubits in another order; and, with the qubits in
that order, a set of qubits is recoverable (C100) for one exactly if it is for the other.
Missing for C124: the same order of the qubits (`C124_order_refuted`), and that both are accepted (`C124_choice_refuted`). -/
theorem C124_same_code_partial {s s' : StabInput} {c c' : StabCode} (h : stabInit s n k none = .ok c) (h' : stabInit s' n k none = .ok c')
    (hb : BinaryArr c.stab) (hb' : BinaryArr c'.stab) (hind : Independent n c.stab) (hind' : Independent n c'.stab)
    (hY : ∀ a < c.stab.rows, parityY (rowPauli n (c.stab.row a)) = 0) (hY' : ∀ a < c'.stab.rows, parityY (rowPauli n (c'.stab.row a)) = 0)
    (hsame : groupOf n ((List.range c.stab.rows).map c.stab.row) = groupOf n ((List.range c'.stab.rows).map c'.stab.row)) :
    ∃ π : Equiv.Perm (Fin n),
      (∀ ψ : Amp n, Encoded c n k ψ ↔ Encoded c' n k (permuteQubits π ψ)) ∧
      ∀ T : Finset (Fin n),
        (∀ p : Pauli n, SupportedOn T p → (∀ g ∈ c.iter, symp (rowPauli n g) p = 0) → p.vec ∈ groupOf n c.iter) ↔
        ∀ p : Pauli n, SupportedOn (T.map π.symm.toEmbedding) p → (∀ g ∈ c'.iter, symp (rowPauli n g) p = 0) → p.vec ∈ groupOf n c'.iter := by
  classical
  obtain ⟨hA, hcom, -, hN, -⟩ := stabInit_ok h
  obtain ⟨hA', hcom', -, hN', -⟩ := stabInit_ok h'
  have hc := initArray_cols hA
  have hc' := initArray_cols hA'
  obtain ⟨hsh, hrk⟩ := C07_accepted_shape s n k c h hb hind
  obtain ⟨hsh', hrk'⟩ := C07_accepted_shape s' n k c' h' hb' hind'
  obtain ⟨-, -, hrows, -⟩ := accepted_facts h hb hind
  obtain ⟨-, -, hrows', -⟩ := accepted_facts h' hb' hind'
  have hk1 := hsh.rows
  have hk2 := hsh'.rows
  rw [groupOf_rows hc, groupOf_rows hc'] at hsame
  have hE : Equi n c.stab c'.stab := ⟨by omega, by rw [hc, hc'], 1, by rw [relabel_one, Submodule.map_id, hsame]⟩
  have hr2 : c'.rank = c.rank := by rw [hrk', hE.xRank2, hrk]
  have hsh2 := hsh'
  rw [hr2] at hsh2
  have hle1 : c.rank ≤ n := by have := hsh.rank_le; omega
  have f1 := follows_normalForm hc (by omega) hN
  have f1' := follows_normalForm hc' (by omega) hN'
  rw [hr2] at f1'
  obtain ⟨σ, a1, a2⟩ := f1.span
  obtain ⟨σ', b1, b2⟩ := f1'.span
  have hspan := firstBlock_span hb hb' hc hc' hsame (r := c.rank) hrk.le (by rw [hE.xRank2]; exact hrk.le)
  have inv : ∀ A : Arr ℤ, BinaryArr A → A.cols = 2 * n → c.rank = xRank2 n A → Inv2 n c.rank (firstBlock n c.rank A) := by
    intro A hbA hcA hrA
    have i1 := firstBlock_spec hbA hcA hrA.le
    have hQ := xRank2_le_Q (n := n) A
    have e1 := equi_firstBlock (n := n) A (rank := c.rank) hle1 (by rw [hrA]; exact hQ.trans (xRankQ_le_rows A))
    refine ⟨i1.bin, i1.cols, i1.unit, ?_⟩
    intro i hi hi2 d hd
    by_contra hne
    have := lt_xRank2_of_one hle1 (by
      rw [e1.rows, hrA]; exact hQ.trans (xRankQ_le_rows A)) i1.unit i1.bin i1.cols hi hi2 hd hne
    rw [e1.xRank2] at this
    omega
  have i2 := inv _ hb hc hrk
  have i2' := inv _ hb' hc' (by rw [hE.xRank2]; exact hrk)
  have hl := hsh.rank_le
  have hl' := hsh2.rank_le
  have hR := f1.rows
  have hR' := f1'.rows
  have hfix : ∀ {d : StabCode}, d.normalForm.cols = 2 * n → ∀ ψ : Amp n, (∀ g ∈ d.iter, pauliAct (rowPauli n g) ψ = ψ) ↔
      ∀ i < d.normalForm.rows, pauliAct (ofVec (rowVec n d.normalForm i)) ψ = ψ := by
    intro d hd ψ
    constructor
    · intro H i hi
      have := H _ (iter_mem.mpr ⟨i, hi, rfl⟩)
      rw [← rowPauli_row hd]
      exact this
    · intro H g hg
      obtain ⟨i, hi, rfl⟩ := iter_mem.mp hg
      have := H i hi
      rw [← rowPauli_row hd] at this
      exact this
  refine ⟨σ'.trans σ.symm, fun ψ => ?_, fun T => ?_⟩
  · rw [encoded_iff h hb hind hY, encoded_iff h' hb' hind' hY', hfix hsh.cols, hfix hsh'.cols]
    constructor
    · exact fun H => fixed_follow i2 i2' hle1 hsh hsh2 hspan (by omega) (by omega) a1 a2 b1 b2 H
    · intro H
      have := fixed_follow i2' i2 hle1 hsh2 hsh hspan.symm (by omega) (by omega) b1 b2 a1 a2 H
      have e : permuteQubits (σ.trans σ'.symm) (permuteQubits (σ'.trans σ.symm) ψ) = ψ := permute_symm (σ'.trans σ.symm) ψ
      rwa [e] at this
  · have hτ : groupOf n c'.iter = (groupOf n c.iter).map (relabel (σ'.trans σ.symm)).toLinearMap := by
      unfold StabCode.iter
      rw [groupOf_rows hsh.cols, groupOf_rows hsh'.cols, a1, b1, ← hspan, ← Submodule.map_comp]
      congr 1
      ext v j <;> simp [relabel]
    rw [condition_iff, condition_iff, hτ, supports_relabel]

/-- A distance in terms of sets of qubits. -/
theorem distance_sets (rows : List (List ℤ)) (d : ℕ) : DistanceAtLeast n rows d ↔
    ∀ T : Finset (Fin n), T.card < d →
      ∀ p : Pauli n, SupportedOn T p → (∀ g ∈ rows, symp (rowPauli n g) p = 0) → p.vec ∈ groupOf n rows := by
  classical
  constructor
  · intro h T hT p hp hc
    by_contra hno
    have h1 := h p hc hno
    have h2 := actsOn_weight hp
    omega
  · intro h p hc hno
    by_contra hlt
    refine hno (h (Finset.univ.filter fun j => p.x j ≠ 0 ∨ p.z j ≠ 0) (not_le.mp hlt) p (fun j hj => ?_) hc)
    simpa using hj

/-- **C124, partial**.  Such inputs give codes of the same distance. -/
theorem C124_distance_partial {s s' : StabInput} {c c' : StabCode} (h : stabInit s n k none = .ok c) (h' : stabInit s' n k none = .ok c')
    (hb : BinaryArr c.stab) (hb' : BinaryArr c'.stab) (hind : Independent n c.stab) (hind' : Independent n c'.stab)
    (hY : ∀ a < c.stab.rows, parityY (rowPauli n (c.stab.row a)) = 0) (hY' : ∀ a < c'.stab.rows, parityY (rowPauli n (c'.stab.row a)) = 0)
    (hsame : groupOf n ((List.range c.stab.rows).map c.stab.row) = groupOf n ((List.range c'.stab.rows).map c'.stab.row)) (d : ℕ) :
    DistanceAtLeast n c.iter d ↔ DistanceAtLeast n c'.iter d := by
  obtain ⟨π, -, hT⟩ := C124_same_code_partial h h' hb hb' hind hind' hY hY' hsame
  rw [distance_sets, distance_sets]
  constructor
  · intro H T hc
    have h1 : (T.map π.toEmbedding).map π.symm.toEmbedding = T := by
      ext j; simp
    have h2 := (hT (T.map π.toEmbedding)).mp (H _ (by rwa [Finset.card_map]))
    rwa [h1] at h2
  · intro H T hc
    exact (hT T).mpr (H _ (by rwa [Finset.card_map]))

/-! ### The order of the generators -/

theorem ofRows_rank {l l' : List (List ℤ)} (hp : l.Perm l') (m : ℕ) (F : Type) [Field F] :
    Matrix.rank (Matrix.of fun (i : Fin (Arr.ofRows m l).rows) (j : Fin n) => (((Arr.ofRows m l).get i j : ℤ) : F)) =
      Matrix.rank (Matrix.of fun (i : Fin (Arr.ofRows m l').rows) (j : Fin n) => (((Arr.ofRows m l').get i j : ℤ) : F)) := by
  rw [Matrix.rank_eq_finrank_span_row, Matrix.rank_eq_finrank_span_row]
  have key : ∀ l : List (List ℤ), Set.range (Matrix.row (Matrix.of fun (i : Fin (Arr.ofRows m l).rows) (j : Fin n) =>
      (((Arr.ofRows m l).get i j : ℤ) : F))) = {v | ∃ r ∈ l, v = fun j : Fin n => ((r.getD j 0 : ℤ) : F)} := by
    intro l
    ext v
    simp only [Set.mem_range, Set.mem_setOf_eq]
    constructor
    · rintro ⟨i, rfl⟩
      have hi : i.val < l.length := i.2
      refine ⟨l[i.val], List.getElem_mem hi, ?_⟩
      funext j
      simp [Matrix.row, Arr.ofRows]
      rfl
    · rintro ⟨r, hr, rfl⟩
      obtain ⟨i, hi, rfl⟩ := List.mem_iff_getElem.mp hr
      refine ⟨⟨i, hi⟩, ?_⟩
      funext j
      simp [Matrix.row, Arr.ofRows]
      rfl
  have hset : {v : Fin n → F | ∃ r ∈ l, v = fun j : Fin n => ((r.getD j 0 : ℤ) : F)} =
      {v | ∃ r ∈ l', v = fun j : Fin n => ((r.getD j 0 : ℤ) : F)} := by
    ext v
    exact exists_congr fun r => and_congr_left fun _ => hp.mem_iff
  rw [key, key, hset]

/-- **C124**.  The order of the generators does not matter for acceptance: for independent, commuting generators the constructor
accepts the array if and only if it accepts the rows in any other order. -/
theorem C124_order (l l' : List (List ℤ)) (hp : l.Perm l') (hne : l ≠ []) (hl : ∀ r ∈ l, r.length = 2 * n)
    (hk : l.length + k = n) (hb : ∀ r ∈ l, IsBinary r) (hcom : ∀ p ∈ l, ∀ q ∈ l, symp (rowPauli n p) (rowPauli n q) = 0)
    (hind : LinearIndependent (ZMod 2) fun i : Fin l.length => (rowPauli n l[i]).vec) :
    (∃ c, stabInit (.rows l) n k none = .ok c) ↔ ∃ c, stabInit (.rows l') n k none = .ok c := by
  have hset : ∀ l : List (List ℤ), Set.range (fun i : Fin l.length => (rowPauli n l[i]).vec) = {v | ∃ r ∈ l, v = (rowPauli n r).vec} := by
    intro l
    ext v
    constructor
    · rintro ⟨i, rfl⟩; exact ⟨_, List.getElem_mem i.2, rfl⟩
    · rintro ⟨r, hr, rfl⟩
      obtain ⟨i, hi, rfl⟩ := List.mem_iff_getElem.mp hr
      exact ⟨⟨i, hi⟩, rfl⟩
  have hind' : LinearIndependent (ZMod 2) fun i : Fin l'.length => (rowPauli n l'[i]).vec := by
    rw [linearIndependent_iff_card_eq_finrank_span, Fintype.card_fin] at hind ⊢
    rw [hset] at hind ⊢
    simp only [← hp.mem_iff, ← hp.length_eq]
    exact hind
  have h1 := C10_array_accepted_iff_partial l n k hne hl hk hb hcom hind
  have h2 := C10_array_accepted_iff_partial l' n k (fun h0 => hne (by rw [h0] at hp; exact hp.eq_nil))
    (fun r hr => hl r (hp.mem_iff.mpr hr)) (by rw [← hp.length_eq]; exact hk) (fun r hr => hb r (hp.mem_iff.mpr hr))
    (fun p hp1 q hq => hcom p (hp.mem_iff.mpr hp1) q (hp.mem_iff.mpr hq)) hind'
  have hQ : xRankQ n (Arr.ofRows (2 * n) l) = xRankQ n (Arr.ofRows (2 * n) l') := ofRows_rank hp (2 * n) ℚ
  have h2' : xRank2 n (Arr.ofRows (2 * n) l) = xRank2 n (Arr.ofRows (2 * n) l') := ofRows_rank hp (2 * n) (ZMod 2)
  rw [hQ, h2'] at h1
  by_cases he : xRankQ n (Arr.ofRows (2 * n) l') = xRank2 n (Arr.ofRows (2 * n) l')
  · exact ⟨fun _ => h2.1 he, fun _ => h1.1 he⟩
  · constructor
    · rintro ⟨c, hc⟩; rw [h1.2 he] at hc; exact absurd hc (by simp)
    · rintro ⟨c, hc⟩; rw [h2.2 he] at hc; exact absurd hc (by simp)

/-! ### Refutations -/

/-- IZIZ and IIZI, in this order. -/
def orderA : List (List ℤ) := [[0, 0, 0, 0, 0, 1, 0, 1], [0, 0, 0, 0, 0, 0, 1, 0]]

/-- The same generators in the other order. -/
def orderB : List (List ℤ) := [[0, 0, 0, 0, 0, 0, 1, 0], [0, 0, 0, 0, 0, 1, 0, 1]]

theorem codeOrderA : ∃ c, stabInit (.rows orderA) 4 2 none = .ok c ∧ BinaryArr c.stab ∧ Independent 4 c.stab ∧
    c.stab = Arr.ofRows (2 * 4) orderA ∧ c.iter = [[0, 0, 0, 0, 1, 0, 0, 1], [0, 0, 0, 0, 0, 1, 0, 0]] := by
  obtain ⟨c, h1, h2, h3, h4, h5, h6⟩ := concrete_code (l := orderA) (n := 4) (k := 2)
    (r := 0) (e := 2) (by decide) (by decide) (by decide) (by unfold IsBinary; decide) (by decide)
    (independent_cert _ (fun j a => if j = 5 ∧ a = 0 ∨ j = 6 ∧ a = 1 then 1 else 0) (by decide))
    (fun F _ => rank_cert (M := Matrix.of fun (i : Fin 2) (j : Fin 4) => (Arr.ofRows (2 * 4) orderA).get i j)
      (0 : Matrix (Fin 2) (Fin 0) ℤ) 0 0 0 (by decide) (by decide) F)
    (Or.inr (rank_cert (M := Matrix.of fun (i : Fin 2) (j : Fin 4) =>
        ((firstBlock 4 0 (Arr.ofRows (2 * 4) orderA)).slice 0 2 (4 + 0) (2 * 4)).get i j)
      !![1, 0; 0, 1] !![0, 1, 0, 1; 0, 0, 1, 0] !![1, 0; 0, 1] !![0, 0; 1, 0; 0, 1; 0, 0] (by decide) (by decide) ℚ))
  rw [if_neg (by decide)] at h6
  refine ⟨c, h1, h2, h3, h4, ?_⟩
  unfold StabCode.iter
  rw [h6]
  decide

theorem codeOrderB : ∃ c, stabInit (.rows orderB) 4 2 none = .ok c ∧ BinaryArr c.stab ∧ Independent 4 c.stab ∧
    c.stab = Arr.ofRows (2 * 4) orderB ∧ c.iter = [[0, 0, 0, 0, 1, 0, 0, 0], [0, 0, 0, 0, 0, 1, 0, 1]] := by
  obtain ⟨c, h1, h2, h3, h4, h5, h6⟩ := concrete_code (l := orderB) (n := 4) (k := 2)
    (r := 0) (e := 2) (by decide) (by decide) (by decide) (by unfold IsBinary; decide) (by decide)
    (independent_cert _ (fun j a => if j = 6 ∧ a = 0 ∨ j = 5 ∧ a = 1 then 1 else 0) (by decide))
    (fun F _ => rank_cert (M := Matrix.of fun (i : Fin 2) (j : Fin 4) => (Arr.ofRows (2 * 4) orderB).get i j)
      (0 : Matrix (Fin 2) (Fin 0) ℤ) 0 0 0 (by decide) (by decide) F)
    (Or.inr (rank_cert (M := Matrix.of fun (i : Fin 2) (j : Fin 4) =>
        ((firstBlock 4 0 (Arr.ofRows (2 * 4) orderB)).slice 0 2 (4 + 0) (2 * 4)).get i j)
      !![1, 0; 0, 1] !![0, 0, 1, 0; 0, 1, 0, 1] !![1, 0; 0, 1] !![0, 0; 0, 1; 1, 0; 0, 0] (by decide) (by decide) ℚ))
  rw [if_neg (by decide)] at h6
  refine ⟨c, h1, h2, h3, h4, ?_⟩
  unfold StabCode.iter
  rw [h6]
  decide

theorem order_even {A : Arr ℤ} {l : List (List ℤ)} (hA : A = Arr.ofRows (2 * 4) l) (hl : l = orderA ∨ l = orderB) :
    ∀ a < A.rows, parityY (rowPauli 4 (A.row a)) = 0 := by
  subst hA
  rcases hl with rfl | rfl <;> decide

/-- **C124 refuted (order)**.  IZIZ, IIZI and IIZI, IZIZ are both accepted, but some state encoded with the first order is not
encoded with the second. -/
theorem C124_order_refuted : orderA.Perm orderB ∧ ∃ c c', stabInit (.rows orderA) 4 2 none = .ok c ∧ stabInit (.rows orderB) 4 2 none = .ok c' ∧
    ∃ ψ : Amp 4, Encoded c 4 2 ψ ∧ ¬ Encoded c' 4 2 ψ := by
  refine ⟨List.Perm.swap _ _ _, ?_⟩
  obtain ⟨c, h1, h2, h3, h4, h5⟩ := codeOrderA
  obtain ⟨c', g1, g2, g3, g4, g5⟩ := codeOrderB
  refine ⟨c, c', h1, g1, ?_⟩
  by_contra hno
  push Not at hno
  have hm : (rowPauli 4 [0, 0, 0, 0, 1, 0, 0, 0]).vec ∈ groupOf 4 c.iter := by
    refine fixed_mem h1 h2 h3 (order_even h4 (Or.inl rfl)) _ fun ψ hψ => ?_
    exact (encoded_iff g1 g2 g3 (order_even g4 (Or.inr rfl)) ψ).mp (hno ψ hψ) _ (by rw [g5]; simp)
  have hz : ∀ v ∈ groupOf 4 c.iter, v.2 0 + v.2 3 = 0 := by
    intro v hv
    unfold groupOf at hv
    induction hv using Submodule.span_induction with
    | mem x hx =>
      obtain ⟨r, hr, rfl⟩ := hx
      rw [h5] at hr
      simp only [List.mem_cons, List.not_mem_nil, or_false] at hr
      rcases hr with rfl | rfl <;> decide
    | zero => simp
    | add x y _ _ hx hy =>
      show x.2 0 + y.2 0 + (x.2 3 + y.2 3) = 0
      rw [add_add_add_comm, hx, hy, add_zero]
    | smul a x _ hx =>
      show a * x.2 0 + a * x.2 3 = 0
      rw [← mul_add, hx, mul_zero]
  have := hz _ hm
  revert this
  decide

/-- XXII, XIXI and ZZZI: other generators of the group of `badGens`. -/
def goodGens : List (List ℤ) := [[1, 1, 0, 0, 0, 0, 0, 0], [1, 0, 1, 0, 0, 0, 0, 0], [0, 0, 0, 0, 1, 1, 1, 0]]

/-- **C124 refuted (choice)**.  The generators of `badGens` (C10) are rejected; XXII, XIXI and ZZZI are accepted and generate the same
group. -/
theorem C124_choice_refuted : groupOf 4 goodGens = groupOf 4 badGens ∧ stabInit (.rows badGens) 4 1 none = .error .assertion ∧
    ∃ c, stabInit (.rows goodGens) 4 1 none = .ok c := by
  refine ⟨?_, C10_refuted.2.2, ?_⟩
  · have hin : ∀ {l : List (List ℤ)} {r : List ℤ}, r ∈ l → (rowPauli 4 r).vec ∈ groupOf 4 l := fun h => mem_groupOf h
    have e1 : (rowPauli 4 [0, 0, 0, 0, 1, 1, 1, 0]).vec =
        (rowPauli 4 [0, 1, 1, 0, 1, 1, 1, 0]).vec + (rowPauli 4 [1, 1, 0, 0, 0, 0, 0, 0]).vec + (rowPauli 4 [1, 0, 1, 0, 0, 0, 0, 0]).vec := by
      decide
    have e2 : (rowPauli 4 [0, 1, 1, 0, 1, 1, 1, 0]).vec =
        (rowPauli 4 [0, 0, 0, 0, 1, 1, 1, 0]).vec + (rowPauli 4 [1, 1, 0, 0, 0, 0, 0, 0]).vec + (rowPauli 4 [1, 0, 1, 0, 0, 0, 0, 0]).vec := by
      decide
    refine le_antisymm (Submodule.span_le.mpr ?_) (Submodule.span_le.mpr ?_)
    · rintro v ⟨r, hr, rfl⟩
      simp only [goodGens, List.mem_cons, List.not_mem_nil, or_false] at hr
      rcases hr with rfl | rfl | rfl
      · exact hin (by simp [badGens])
      · exact hin (by simp [badGens])
      · rw [SetLike.mem_coe, e1]
        exact Submodule.add_mem _ (Submodule.add_mem _ (hin (by simp [badGens])) (hin (by simp [badGens]))) (hin (by simp [badGens]))
    · rintro v ⟨r, hr, rfl⟩
      simp only [badGens, List.mem_cons, List.not_mem_nil, or_false] at hr
      rcases hr with rfl | rfl | rfl
      · exact hin (by simp [goodGens])
      · exact hin (by simp [goodGens])
      · rw [SetLike.mem_coe, e2]
        exact Submodule.add_mem _ (Submodule.add_mem _ (hin (by simp [goodGens])) (hin (by simp [goodGens]))) (hin (by simp [goodGens]))
  · obtain ⟨c, h1, -⟩ := concrete_code (l := goodGens) (n := 4) (k := 1)
      (r := 2) (e := 1) (by decide) (by decide) (by decide) (by unfold IsBinary; decide) (by decide)
      (independent_cert _ (fun j a => if j = 1 ∧ a = 0 ∨ j = 2 ∧ a = 1 ∨ j = 4 ∧ a = 2 then 1 else 0) (by decide))
      (fun F _ => rank_cert (M := Matrix.of fun (i : Fin 3) (j : Fin 4) => (Arr.ofRows (2 * 4) goodGens).get i j)
        !![1, 0; 0, 1; 0, 0] !![1, 1, 0, 0; 1, 0, 1, 0] !![1, 0, 0; 0, 1, 0] !![0, 0; 1, 0; 0, 1; 0, 0] (by decide) (by decide) F)
      (Or.inr (rank_cert (M := Matrix.of fun (i : Fin 1) (j : Fin 2) =>
          ((firstBlock 4 2 (Arr.ofRows (2 * 4) goodGens)).slice 2 3 (4 + 2) (2 * 4)).get i j)
        !![1] !![1, 0] !![1] !![1; 0] (by decide) (by decide) ℚ))
    exact ⟨c, h1⟩

/-! ### A case that meets the hypotheses -/

/-- The two orders of `C124_order_refuted` meet the hypotheses of `C124_same_code_partial`. -/
example : ∃ c c', stabInit (.rows orderA) 4 2 none = .ok c ∧ stabInit (.rows orderB) 4 2 none = .ok c' ∧
    groupOf 4 ((List.range c.stab.rows).map c.stab.row) = groupOf 4 ((List.range c'.stab.rows).map c'.stab.row) ∧
    ∃ π : Equiv.Perm (Fin 4), ∀ ψ : Amp 4, Encoded c 4 2 ψ ↔ Encoded c' 4 2 (permuteQubits π ψ) := by
  obtain ⟨c, h1, h2, h3, h4, h5⟩ := codeOrderA
  obtain ⟨c', g1, g2, g3, g4, g5⟩ := codeOrderB
  have hsame : groupOf 4 ((List.range c.stab.rows).map c.stab.row) = groupOf 4 ((List.range c'.stab.rows).map c'.stab.row) := by
    have e : (List.range c.stab.rows).map c.stab.row = orderA := by rw [h4]; decide
    have e' : (List.range c'.stab.rows).map c'.stab.row = orderB := by rw [g4]; decide
    rw [e, e']
    unfold groupOf
    have : orderA.Perm orderB := List.Perm.swap _ _ _
    simp only [this.mem_iff]
  obtain ⟨π, he, -⟩ := C124_same_code_partial h1 g1 h2 g2 h3 g3 (order_even h4 (Or.inl rfl)) (order_even g4 (Or.inr rfl)) hsame
  exact ⟨c, c', h1, g1, hsame, π, he⟩

end PyQ
