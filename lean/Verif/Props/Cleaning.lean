import Verif.Props.Singleton
import Verif.Props.SuppliedOps
import Verif.Lemmas.Cleaning
import Verif.Lemmas.Counting

/-! # C123: what can be done on a code without the qubits that may be lost -/

namespace PyQ

open Spec Module

/-- Every gate acts on one qubit, outside `T`, without control. -/
def Avoids {n : ℕ} (T : Finset (Fin n)) (gs : List Gate) : Prop := ∀ g ∈ gs, g.ctrl = none ∧ ∀ j ∈ T, g.wire ≠ j.val

theorem orth_group {n : ℕ} {rows : List (List ℤ)} {v : BVec n} :
    v ∈ (sympB n).orthogonal (groupOf n rows) ↔ ∀ g ∈ rows, symp (rowPauli n g) (ofVec v) = 0 := by
  rw [mem_orth]
  constructor
  · intro h g hg
    rw [← sympV_vec]
    exact h _ (Submodule.subset_span ⟨g, hg, rfl⟩)
  · intro h s hs
    refine Submodule.span_induction ?_ ?_ ?_ ?_ hs
    · rintro _ ⟨g, hg, rfl⟩
      have := h g hg
      rwa [← sympV_vec] at this
    · simp [sympV, dotp]
    · intro a b _ _ ha hb
      rw [sympV_add_left, ha, hb, add_zero]
    · intro r a _ ha
      rw [sympV_smul_left, ha]; exact mul_zero _

theorem condition_iff {n : ℕ} {rows : List (List ℤ)} {T : Finset (Fin n)} :
    (∀ p : Pauli n, SupportedOn T p → (∀ g ∈ rows, symp (rowPauli n g) p = 0) → p.vec ∈ groupOf n rows) ↔
      (sympB n).orthogonal (groupOf n rows) ⊓ supported T ≤ groupOf n rows := by
  constructor
  · rintro h v ⟨h1, h2⟩
    exact h (ofVec v) (fun j hj => h2 j hj) (orth_group.mp h1)
  · intro h p hp hc
    exact h ⟨orth_group.mpr hc, fun j hj => hp j hj⟩

variable {s : StabInput} {k : ℕ} {c : StabCode}

/-- **C123**.  For an accepted code with independent generators, each with an even number of `Y`s, and any set `T` of qubits: one
table of corrections undoes every noise on `T` if and only if every Pauli operator that maps the code to itself has a substitute that
does nothing on `T` and acts in the same way on all encoded superpositions, up to one phase. -/
theorem C123_avoid (h : stabInit s c.n k none = .ok c) (hb : BinaryArr c.stab) (hind : Independent c.n c.stab)
    (hY : ∀ a < c.stab.rows, parityY (rowPauli c.n (c.stab.row a)) = 0) (T : Finset (Fin c.n)) :
    (∃ table : List (ZMod 2) → List ℤ, (∀ rs, (table rs).length = 2 * c.n ∧ IsBinary (table rs)) ∧
        UndoesNoise c k {A | ActsOn T A} table) ↔
      ∃ enc : (Fin k → ZMod 2) → List Gate, (∀ δ, encodingCircuit c c.n (bitsList δ) = .ok (enc δ)) ∧
        ∀ e : List ℤ, e.length = 2 * c.n → IsBinary e → (∀ g ∈ c.iter, symp (rowPauli c.n g) (rowPauli c.n e) = 0) →
          ∃ e' : List ℤ, e'.length = 2 * c.n ∧ IsBinary e' ∧ SupportedOn Tᶜ (rowPauli c.n e') ∧
            ∃ gs gs', applyStabilizerCircuit c.n (.bin e) = .ok gs ∧ applyStabilizerCircuit c.n (.bin e') = .ok gs' ∧
              ∃ ω : ℂ, Complex.normSq ω = 1 ∧ ∀ α : (Fin k → ZMod 2) → ℂ,
                run gs' (∑ δ, α δ • (run (enc δ) (ket 0) : Amp c.n)) = ω • run gs (∑ δ, α δ • run (enc δ) (ket 0)) := by
  classical
  obtain ⟨enc, e1, e2⟩ := C60_encoded_span s c.n k c h hb hind hY
  have hfix : ∀ α : (Fin k → ZMod 2) → ℂ, ∀ g ∈ c.iter,
      pauliAct (rowPauli c.n g) (∑ δ, α δ • (run (enc δ) (ket 0) : Amp c.n)) = ∑ δ, α δ • run (enc δ) (ket 0) :=
    fun α => ((e2 _).1).mpr ⟨α, rfl⟩
  rw [← (C100_equivalent s k c h hb hind hY T).2, ← (C100_equivalent s k c h hb hind hY T).1, condition_iff, ← clean_iff]
  have hsgn : ∀ t : ZMod 2, Complex.normSq (sgn t : ℂ) = 1 := by
    intro t
    rcases zmod2_cases t with rfl | rfl <;> simp
  have hI : ∀ m : ℕ, Complex.normSq (Complex.I ^ m) = 1 := by
    intro m; rw [map_pow, Complex.normSq_I, one_pow]
  constructor
  · intro hcl
    refine ⟨enc, e1, fun e hl hbin hcom => ?_⟩
    obtain ⟨a, ha, b, hb', hab⟩ := Submodule.mem_sup.mp (hcl (orth_group.mpr hcom : (rowPauli c.n e).vec ∈ _))
    obtain ⟨r1, r2, r3⟩ := pauliRow_spec (ofVec b)
    refine ⟨pauliRow (ofVec b), r1, r2, ?_, ?_⟩
    · rw [r3]; exact fun j hj => hb' j hj
    obtain ⟨gs, t, g1, -, -, g4⟩ := C48_apply_stabilizer c.n e hl hbin
    obtain ⟨gs', t', f1, -, -, f4⟩ := C48_apply_stabilizer c.n _ r1 r2
    refine ⟨gs, gs', g1, f1, ?_⟩
    have hbe : (ofVec b).vec + (rowPauli c.n e).vec ∈ groupOf c.n c.iter := by
      have : (ofVec b).vec + (rowPauli c.n e).vec = a := by
        show b + (rowPauli c.n e).vec = a
        rw [← hab, add_comm a b, ← add_assoc, bvec_add_self, zero_add]
      rw [this]; exact ha
    obtain ⟨u, hu⟩ := equiv_act _ _ hbe
    refine ⟨Complex.I ^ (t'.count 'Y') * sgn u * (Complex.I ^ (t.count 'Y'))⁻¹, ?_, fun α => ?_⟩
    · rw [map_mul, map_mul, map_inv₀, hI, hI, hsgn]; norm_num
    · rw [g4, f4, r3, hu _ (hfix α), smul_smul, smul_smul]
      congr 1
      have : (Complex.I ^ (t.count 'Y') : ℂ) ≠ 0 := pow_ne_zero _ Complex.I_ne_zero
      field_simp
  · rintro ⟨enc', e1', hall⟩ v hv
    obtain ⟨r1, r2, r3⟩ := pauliRow_spec (ofVec v)
    obtain ⟨e', l', b', s', gs, gs', g1, f1, ω, -, hω⟩ := hall (pauliRow (ofVec v)) r1 r2 (by rw [r3]; exact orth_group.mp hv)
    obtain rfl : enc' = enc := by
      funext δ
      have h1 := e1' δ
      rw [e1] at h1
      exact (Except.ok.inj h1).symm
    obtain ⟨enc'', corr, dec, c1, c2, -, c4, -⟩ := C61_correction s c.n k c h hb hind hY (pauliRow (ofVec v)) e' l' b'
    obtain rfl : enc'' = enc' := by
      funext δ
      have h1 := c1 δ
      rw [e1] at h1
      exact (Except.ok.inj h1).symm
    rw [f1] at c2
    cases c2
    obtain ⟨hs, t, g1', -, -, g4⟩ := C48_apply_stabilizer c.n _ r1 r2
    obtain ⟨hs', t', f1', -, -, f4⟩ := C48_apply_stabilizer c.n e' l' b'
    rw [g1'] at g1
    rw [f1'] at f1
    cases g1; cases f1
    have hmem := c4.mp ⟨Complex.I ^ (t'.count 'Y') *
        (sgn (dotp (rowPauli c.n e').z (ofVec v).x) * sgn (dotp (ofVec v).z (rowPauli c.n e').x)) *
        ((Complex.I ^ (t'.count 'Y'))⁻¹ * ω * Complex.I ^ (t.count 'Y') * sgn (dotp (ofVec v).z (ofVec v).x)), fun α => by
      have hI' : (Complex.I ^ (t'.count 'Y') : ℂ) ≠ 0 := pow_ne_zero _ Complex.I_ne_zero
      have h1 := hω α
      rw [g4, f4, r3] at h1
      have h2 : pauliAct (rowPauli c.n e') (∑ δ, α δ • (run (enc'' δ) (ket 0) : Amp c.n)) =
          ((Complex.I ^ (t'.count 'Y'))⁻¹ * ω * Complex.I ^ (t.count 'Y')) • pauliAct (ofVec v) (∑ δ, α δ • (run (enc'' δ) (ket 0) : Amp c.n)) := by
        have h3 := congrArg (fun φ => (Complex.I ^ (t'.count 'Y'))⁻¹ • φ) h1
        simp only [smul_smul] at h3
        rw [inv_mul_cancel₀ hI', one_smul] at h3
        rw [h3]
        congr 1
        ring
      have hsw : ∀ ψ : Amp c.n, pauliAct (rowPauli c.n e') (pauliAct (ofVec v) ψ) =
          ((sgn (dotp (rowPauli c.n e').z (ofVec v).x) : ℂ) * sgn (dotp (ofVec v).z (rowPauli c.n e').x)) •
            pauliAct (ofVec v) (pauliAct (rowPauli c.n e') ψ) := by
        intro ψ
        have hadd : (rowPauli c.n e').add (ofVec v) = (ofVec v).add (rowPauli c.n e') := by
          simp [Pauli.add, add_comm]
        rw [pauliAct_comp, pauliAct_comp, hadd, smul_smul, mul_assoc, sgn_mul_self, mul_one]
      have hself : ∀ ψ : Amp c.n, pauliAct (ofVec v) (pauliAct (ofVec v) ψ) = (sgn (dotp (ofVec v).z (ofVec v).x) : ℂ) • ψ := by
        intro ψ
        have hz : (ofVec v).add (ofVec v) = ⟨0, 0⟩ := by simp [Pauli.add, add_self_f]
        rw [pauliAct_comp, hz, pauliAct_one]
      rw [f4, r3, hsw, h2, pauliAct_smul, hself, smul_smul, smul_smul, smul_smul]
      congr 1
      ring⟩
    rw [r3] at hmem
    refine Submodule.mem_sup.mpr ⟨_, hmem, (rowPauli c.n e').vec, fun j hj => s' j hj, ?_⟩
    rw [add_assoc, bvec_add_self, add_zero]
    rfl

/-- **C123**.  Let `N(T)` be the number of Pauli operators on `T` that commute with all rows of the normal form and `G(T)` the number
of those in the group of the rows.  For an accepted code with independent generators and any set `T` of qubits,
`N(T) N(Tᶜ) = 4^k G(T) G(Tᶜ)`: what the code hides from `T` is available on the other qubits. -/
theorem C123_count (h : stabInit s c.n k none = .ok c) (hb : BinaryArr c.stab) (hind : Independent c.n c.stab) (T : Finset (Fin c.n)) :
    {p : Pauli c.n | SupportedOn T p ∧ ∀ g ∈ c.iter, symp (rowPauli c.n g) p = 0}.ncard *
        {p : Pauli c.n | SupportedOn Tᶜ p ∧ ∀ g ∈ c.iter, symp (rowPauli c.n g) p = 0}.ncard =
      4 ^ k * ({p : Pauli c.n | SupportedOn T p ∧ p.vec ∈ groupOf c.n c.iter}.ncard *
        {p : Pauli c.n | SupportedOn Tᶜ p ∧ p.vec ∈ groupOf c.n c.iter}.ncard) := by
  have hN : ∀ T : Finset (Fin c.n), {p : Pauli c.n | SupportedOn T p ∧ ∀ g ∈ c.iter, symp (rowPauli c.n g) p = 0} =
      {p : Pauli c.n | p.vec ∈ (sympB c.n).orthogonal (groupOf c.n c.iter) ⊓ supported T} := by
    intro T
    ext p
    exact ⟨fun hp => ⟨orth_group.mpr hp.2, fun j hj => hp.1 j hj⟩, fun hp => ⟨fun j hj => hp.2 j hj, orth_group.mp hp.1⟩⟩
  have hG : ∀ T : Finset (Fin c.n), {p : Pauli c.n | SupportedOn T p ∧ p.vec ∈ groupOf c.n c.iter} =
      {p : Pauli c.n | p.vec ∈ groupOf c.n c.iter ⊓ supported T} := by
    intro T
    ext p
    exact ⟨fun hp => ⟨hp.2, fun j hj => hp.1 j hj⟩, fun hp => ⟨fun j hj => hp.2 j hj, hp.1⟩⟩
  rw [hN, hN, hG, hG, pauli_ncard, pauli_ncard, pauli_ncard, pauli_ncard, ← pow_add, ← pow_add]
  have h1 := clean_dims T (groupOf c.n c.iter)
  have h2 := iter_rank h hb hind
  rw [show (4 : ℕ) = 2 ^ 2 by norm_num, ← pow_mul, ← pow_add]
  congr 1
  omega

/-! ### The logical operators of the package -/

theorem strG_avoids {n : ℕ} {st : List Char} (hl : st.length = n) {T : Finset (Fin n)} (h : SupportedOn Tᶜ (strPauli n st)) :
    Avoids T (strG none 0 st) := by
  intro g hg
  unfold strG at hg
  obtain ⟨⟨ch, q⟩, hm, hg⟩ := List.mem_flatMap.mp hg
  simp only at hg
  have hget : st.getD q 'I' = ch := by
    have := List.mem_zipIdx hm
    simp only [Nat.zero_le, zero_add, true_and, Nat.sub_zero] at this
    rw [List.getD_eq_getElem _ _ this.1]; exact this.2.symm
  have hq : g.ctrl = none ∧ g.wire = q ∧ (ch = 'X' ∨ ch = 'Y' ∨ ch = 'Z') := by
    unfold letterG at hg
    split_ifs at hg with h1 h2 h3
    · rw [List.mem_singleton] at hg; subst hg; exact ⟨rfl, rfl, Or.inl h1⟩
    · rw [List.mem_singleton] at hg; subst hg; exact ⟨rfl, rfl, Or.inr (Or.inl h2)⟩
    · rw [List.mem_singleton] at hg; subst hg; exact ⟨rfl, rfl, Or.inr (Or.inr h3)⟩
    · exact absurd hg (by simp)
  refine ⟨hq.1, fun j hj he => ?_⟩
  have h0 := h j (by simpa using hj)
  rw [hq.2.1] at he
  simp only [strPauli, ← he, hget] at h0
  rcases hq.2.2 with rfl | rfl | rfl <;> revert h0 <;> decide

/-- The circuit of a supplied operator that does nothing on `T` has no gate on `T`. -/
theorem supplied_avoids {c : StabCode} {n : ℕ} {p : Char} (hp : p = 'X' ∨ p = 'Z') {i : ℕ} (hi10 : i < 10) (hi : i < c.k)
    {L : Arr ℤ} (hL : L = if p = 'X' then c.logicalX else c.logicalZ) (hc : L.cols = 2 * n) (hr : i < L.rows)
    (hb : IsBinary (L.row i)) {T : Finset (Fin n)} (hT : SupportedOn Tᶜ (rowPauli n (L.row i))) {gs : List Gate}
    (hgs : logicalCircuit c n [p, Char.ofNat (48 + i)] = .ok gs) : Avoids T gs := by
  obtain ⟨st, s1, s2, s3⟩ := rowStr (b := L.row i) (n := n) (by rw [row_length]; exact hc) hb
  have e : logicalRow c p i = .ok (L.row i) := by
    unfold logicalRow
    rcases hp with rfl | rfl
    · rw [if_pos rfl] at hL ⊢
      subst hL
      unfold rowAt; rw [if_pos hr]
    · rw [if_neg (by decide)] at hL
      rw [if_neg (by decide), if_pos rfl]
      subst hL
      unfold rowAt; rw [if_pos hr]
  unfold logicalCircuit at hgs
  simp only at hgs
  unfold pyAssert at hgs
  rw [if_pos (by rcases hp with rfl | rfl <;> simp), intOfChar_digit hi10, ok_bind', ok_bind', if_pos hi, ok_bind', e, ok_bind', s1,
    ok_bind', pauliGates_ok (by omega)] at hgs
  cases hgs
  exact strG_avoids s2 (by rw [s3]; exact hT)

/-- The array of some rows. -/
theorem arr_of_rows {n k : ℕ} (R : ℕ → List ℤ) (hR : ∀ i, (R i).length = 2 * n) :
    ∃ L : Arr ℤ, L.rows = k ∧ L.cols = 2 * n ∧ ∀ i, L.row i = R i := by
  refine ⟨⟨k, 2 * n, fun i j => (R i).getD j 0⟩, rfl, rfl, fun i => ?_⟩
  refine List.ext_getElem (by simp [Arr.row, hR]) fun j h1 h2 => ?_
  simp [Arr.row, h2]

/-- **C123**.  If one table of corrections undoes every noise on the qubits of `T`, there are logical operators which the constructor
accepts and for which `logical_circuit('Xi')` and `logical_circuit('Zi')` have no gate on `T`, flip the bit `i` of every encoded state
and give the sign of the bit `i`, each up to one sign that does not depend on the state. -/
theorem C123_logical (h : stabInit s c.n k none = .ok c) (hb : BinaryArr c.stab) (hind : Independent c.n c.stab)
    (hY : ∀ a < c.stab.rows, parityY (rowPauli c.n (c.stab.row a)) = 0) (T : Finset (Fin c.n))
    (hT : ∃ table : List (ZMod 2) → List ℤ, (∀ rs, (table rs).length = 2 * c.n ∧ IsBinary (table rs)) ∧
        UndoesNoise c k {A | ActsOn T A} table) :
    ∃ (LX LZ : Arr ℤ) (c' : StabCode), stabInit s c.n k (some (LX, LZ)) = .ok c' ∧ ∀ i < k, i < 10 →
      ∃ xs zs, logicalCircuit c' c.n ['X', Char.ofNat (48 + i)] = .ok xs ∧ logicalCircuit c' c.n ['Z', Char.ofNat (48 + i)] = .ok zs ∧
        Avoids T xs ∧ Avoids T zs ∧
        ∃ t u : ZMod 2, ∀ δ : List ℤ, δ.length = k → IsBinary δ → ∃ gs gs', encodingCircuit c c.n δ = .ok gs ∧
          encodingCircuit c c.n (δ.set i (1 - δ.getD i 0)) = .ok gs' ∧
          run xs (run gs (ket 0)) = (sgn t : ℂ) • (run gs' (ket 0) : Amp c.n) ∧
          run zs (run gs (ket 0)) = ((sgn u : ℂ) * (if δ.getD i 0 = 1 then -1 else 1)) • (run gs (ket 0) : Amp c.n) := by
  classical
  rw [← (C100_equivalent s k c h hb hind hY T).2, ← (C100_equivalent s k c h hb hind hY T).1, condition_iff, ← clean_iff] at hT
  obtain ⟨hn, hk, -, -, -, -, -⟩ := accepted_facts h hb hind
  obtain ⟨-, -, -, -, -, -, hlg, -⟩ := C08_logical_operators s c.n k c h hb hind
  have key : ∀ L : Arr ℤ, (∀ i < k, ∀ g ∈ c.iter, symp (rowPauli c.n g) (rowPauli c.n (L.row i)) = 0) →
      ∃ M : Arr ℤ, M.rows = k ∧ M.cols = 2 * c.n ∧ (∀ i < k, IsBinary (M.row i)) ∧
        (∀ i < k, SupportedOn Tᶜ (rowPauli c.n (M.row i))) ∧
        ∀ i < k, (rowPauli c.n (M.row i)).vec + (rowPauli c.n (L.row i)).vec ∈ groupOf c.n c.iter := by
    intro L hL
    have h1 : ∀ i : ℕ, ∃ b : BVec c.n, i < k → b ∈ supported Tᶜ ∧ b + (rowPauli c.n (L.row i)).vec ∈ groupOf c.n c.iter := by
      intro i
      by_cases hi : i < k
      · obtain ⟨a, ha, b, hb', hab⟩ := Submodule.mem_sup.mp (hT (orth_group.mpr (hL i hi) : (rowPauli c.n (L.row i)).vec ∈ _))
        refine ⟨b, fun _ => ⟨hb', ?_⟩⟩
        have : b + (rowPauli c.n (L.row i)).vec = a := by
          rw [← hab, add_comm a b, ← add_assoc, bvec_add_self, zero_add]
        rw [this]; exact ha
      · exact ⟨0, fun h => absurd h hi⟩
    choose b hb' using h1
    obtain ⟨M, m1, m2, m3⟩ := arr_of_rows (k := k) (fun i => pauliRow (ofVec (b i))) fun i => (pauliRow_spec _).1
    refine ⟨M, m1, m2, fun i hi => ?_, fun i hi => ?_, fun i hi => ?_⟩
    · rw [m3]; exact (pauliRow_spec _).2.1
    · rw [m3, (pauliRow_spec _).2.2]; exact fun j hj => (hb' i hi).1 j hj
    · rw [m3, (pauliRow_spec _).2.2]; exact (hb' i hi).2
  obtain ⟨LX, x1, x2, x3, x4, x5⟩ := key c.logicalX fun i hi g hg => by
    rw [← sympV_vec, sympV_comm, sympV_vec]; exact (hlg i hi g hg).1
  obtain ⟨LZ, z1, z2, z3, z4, z5⟩ := key c.logicalZ fun i hi g hg => by
    rw [← sympV_vec, sympV_comm, sympV_vec]; exact (hlg i hi g hg).2
  refine ⟨LX, LZ, { c with logicalX := LX, logicalZ := LZ }, by rw [C70_stored s c.n k c h, if_pos ⟨x2, z2⟩], fun i hi hi10 => ?_⟩
  obtain ⟨c', xs, zs, q0, q1, q2, q3⟩ := C70_logical_equiv s c.n k c h hb hind hY LX LZ x2 z2 i hi hi10 (by omega) (by omega)
    (x3 i hi) (z3 i hi) (x5 i hi) (z5 i hi)
  rw [C70_stored s c.n k c h, if_pos ⟨x2, z2⟩] at q0
  cases q0
  refine ⟨xs, zs, q1, q2, ?_, ?_, q3⟩
  · exact supplied_avoids (p := 'X') (Or.inl rfl) hi10 (by simp only; omega) (L := LX) rfl x2 (by omega) (x3 i hi) (x4 i hi) q1
  · exact supplied_avoids (p := 'Z') (Or.inr rfl) hi10 (by simp only; omega) (L := LZ) (by rw [if_neg (by decide)]) z2 (by omega)
      (z3 i hi) (z4 i hi) q2

/-! ### A case that meets the hypotheses -/

/-- The code of XZZXI, IXZZX, XIXZZ and ZXIXZ: both operators of the logical qubit can be done on the last three qubits. -/
example : ∃ c, stabInit (.rows fiveRows) c.n 1 none = .ok c ∧ ∃ T : Finset (Fin c.n), T.card = 2 ∧
    ∃ table : List (ZMod 2) → List ℤ, (∀ rs, (table rs).length = 2 * c.n ∧ IsBinary (table rs)) ∧
        UndoesNoise c 1 {A | ActsOn T A} table := by
  obtain ⟨c, h1, h2, h3, h4, h5⟩ := five_code
  have hn : c.n = 5 := (accepted_facts h1 h2 h3).1
  have g1 : stabInit (.rows fiveRows) c.n 1 none = .ok c := by rw [hn]; exact h1
  have g3 : Independent c.n c.stab := by rw [hn]; exact h3
  have g4 : ∀ a < c.stab.rows, parityY (rowPauli c.n (c.stab.row a)) = 0 := by rw [hn]; exact h4
  obtain ⟨T, -, hT⟩ := Finset.exists_subset_card_eq (s := (Finset.univ : Finset (Fin c.n))) (n := 2) (by simp [hn])
  refine ⟨c, g1, T, hT, ?_⟩
  rw [← (C100_equivalent _ 1 c g1 h2 g3 g4 T).2, ← (C100_equivalent _ 1 c g1 h2 g3 g4 T).1]
  intro p hp hcom
  have hw := actsOn_weight hp
  have hd : ∀ p : Pauli c.n, weight p ≤ 2 → (∀ g ∈ c.iter, symp (rowPauli c.n g) p = 0) → p.vec ∈ groupOf c.n c.iter := by
    rw [hn]; exact five_distance h5
  exact hd p (by omega) hcom

end PyQ
