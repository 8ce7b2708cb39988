import Verif.Props.DecodeError
import Verif.Props.BestTable
import Verif.Props.DependentMore
import Verif.Props.Rounds
import Verif.Props.WrongReadings
import Verif.Spec.LastQubits
import Verif.Lemmas.Local

/-! **C151**: random Pauli errors, uncorrected and with rounds of correction, as a channel on the encoded qubits. -/

namespace PyQ

open Spec Matrix

variable {n k : ℕ}

theorem lastQubits_tensor {φ : Amp n} (hφ : Normalised φ) (χ : Amp k) : lastQubits (tensor φ χ) = pureState χ := by
  funext x y
  unfold lastQubits pureState
  have e : ∀ (b : Fin n → ZMod 2) (z : Fin k → ZMod 2), tensor φ χ (Fin.append b z) = φ b * χ z := by
    intro b z
    unfold tensor
    simp only [Fin.append_left, Fin.append_right]
  simp only [e, star_mul']
  have : ∀ b, φ b * χ x * (star (φ b) * star (χ y)) = ((Complex.normSq (φ b) : ℝ) : ℂ) * (χ x * star (χ y)) := by
    intro b
    rw [← Complex.mul_conj]
    simp only [Complex.star_def]
    ring
  simp only [this]
  rw [← Finset.sum_mul, ← Complex.ofReal_sum]
  unfold Normalised at hφ
  rw [hφ, Complex.ofReal_one, one_mul]

open Classical in
/-- **C151**.  Encode any state, let a Pauli error happen that is drawn with weights `q`, do not correct it, decode and ignore
the code qubits.  The decoded qubits are in the mixture of the encoded state with all Pauli operators `L` on `k` qubits
applied, each with the total weight of the errors that have an X on qubit `i` of `L` exactly when they anticommute with logical
Z `i` and a Z exactly when they anticommute with logical X `i`. -/
theorem C151_channel (s : StabInput) (c : StabCode) (h : stabInit s n k none = .ok c) (hb : BinaryArr c.stab)
    (len : ℕ) (addAncilla : Bool) (hla : (len = n ∧ addAncilla = true) ∨ (len = n + k ∧ addAncilla = false)) :
    ∃ (enc : (Fin k → ZMod 2) → List Gate) (dec : List Gate),
      (∀ δ, encodingCircuit c n (bitsList δ) = .ok (enc δ)) ∧ decodingCircuit c len addAncilla = .ok dec ∧
      ∀ (q : Pauli n → ℝ) (α : (Fin k → ZMod 2) → ℂ),
        (∑ E, (q E : ℂ) • lastQubits (run dec (tensor (pauliAct E (∑ δ, α δ • (run (enc δ) (ket 0) : Amp n))) (ket 0)))) =
          ∑ L : Pauli k, ((∑ E, if seenBy (rowsOf c.logicalX) (rowsOf c.logicalZ) k E = L then q E else 0 : ℝ) : ℂ) •
            pureState (pauliAct L α) := by
  obtain ⟨enc, dec, henc, hdec, hrun⟩ := C141_uncorrected s c h hb len addAncilla hla
  refine ⟨enc, dec, henc, hdec, fun q α => ?_⟩
  have hnorm : ∀ δ, Normalised (run (enc δ) (ket 0) : Amp n) := by
    intro δ
    obtain ⟨gs, gs', h1, h2, h3⟩ := C139_isometry s c h hb (bitsList δ) (bitsList δ) (bitsList_length δ) (bitsList_binary δ)
      (bitsList_length δ) (bitsList_binary δ)
    rw [henc] at h1 h2
    cases h1
    cases h2
    rw [if_pos rfl] at h3
    exact normalised_of_braket h3
  have hsum : (∑ δ, α δ • (ket δ : Amp k)) = α := by
    funext x
    simp [ket, Finset.sum_apply]
  have step : ∀ E, lastQubits (run dec (tensor (pauliAct E (∑ δ, α δ • (run (enc δ) (ket 0) : Amp n))) (ket 0))) =
      pureState (pauliAct (seenBy (rowsOf c.logicalX) (rowsOf c.logicalZ) k E) α) := by
    intro E
    obtain ⟨ω, hω, hE⟩ := hrun E
    rw [hE α, hsum]
    refine lastQubits_tensor (normalised_smul' ?_ (normalised_pauli _ (hnorm _))) _
    rcases hω with e | e <;> simp [e]
  simp only [step]
  have : ∀ L : Pauli k, ((∑ E, if seenBy (rowsOf c.logicalX) (rowsOf c.logicalZ) k E = L then q E else 0 : ℝ) : ℂ) •
      pureState (pauliAct L α) = ∑ E, if seenBy (rowsOf c.logicalX) (rowsOf c.logicalZ) k E = L then
        (q E : ℂ) • pureState (pauliAct L α) else 0 := by
    intro L
    rw [Complex.ofReal_sum, Finset.sum_smul]
    refine Finset.sum_congr rfl fun E _ => ?_
    split_ifs
    · rfl
    · rw [Complex.ofReal_zero, zero_smul]
  simp only [this]
  rw [Finset.sum_comm]
  refine Finset.sum_congr rfl fun E _ => ?_
  rw [Finset.sum_ite_eq Finset.univ]
  simp

/-- The logical operators of an accepted code, by number. -/
theorem logical_shape (s : StabInput) (c : StabCode) (h : stabInit s n k none = .ok c) (hb : BinaryArr c.stab) :
    c.logicalX.rows = k ∧ c.logicalZ.rows = k := by
  obtain ⟨l, c', g1, g2, g3, -, -, g6, g7, -⟩ := C139_as_independent s c h hb
  obtain ⟨-, -, -, hsh, hX, hZ, -⟩ := accepted_facts g1 g2 g3
  exact ⟨by rw [← g6.1, hX]; exact (lx_shape hsh).1, by rw [← g7.1, hZ]; exact (lz_shape hsh).1⟩

theorem seenBy_eq (s : StabInput) (c : StabCode) (h : stabInit s n k none = .ok c) (hb : BinaryArr c.stab) (E : Pauli n) :
    seenBy (rowsOf c.logicalX) (rowsOf c.logicalZ) k E = ⟨fun i => symp (rowPauli n (c.logicalZ.row i)) E,
      fun i => symp (rowPauli n (c.logicalX.row i)) E⟩ := by
  obtain ⟨hx, hz⟩ := logical_shape s c h hb
  unfold seenBy
  refine congrArg₂ Pauli.mk (funext fun i => ?_) (funext fun i => ?_)
  · rw [rowsOf_getD _ (by rw [hz]; exact i.2)]
  · rw [rowsOf_getD _ (by rw [hx]; exact i.2)]

/-- **C151, how many errors look alike**.  Every Pauli operator on the `k` decoded qubits is what exactly `4^(n-k)` of the
errors on the `n` code qubits do to them. -/
theorem C151_count (s : StabInput) (c : StabCode) (h : stabInit s n k none = .ok c) (hb : BinaryArr c.stab) (L : Pauli k) :
    {E : Pauli n | seenBy (rowsOf c.logicalX) (rowsOf c.logicalZ) k E = L}.ncard = 4 ^ (n - k) := by
  classical
  obtain ⟨hpair, -, -⟩ := C139_logical_operators s c h hb
  let X : Fin k → BVec n := fun i => (rowPauli n (c.logicalX.row i)).vec
  let Z : Fin k → BVec n := fun i => (rowPauli n (c.logicalZ.row i)).vec
  let f : BVec n →ₗ[ZMod 2] BVec k := LinearMap.prod (LinearMap.pi fun i => sympB n (Z i)) (LinearMap.pi fun i => sympB n (X i))
  have hXZ : ∀ i j, sympV (X i) (Z j) = if i = j then 1 else 0 := by
    intro i j
    have := (hpair i i.2 j j.2).1
    simp only [Fin.val_inj] at this
    exact this
  have hXX : ∀ i j, sympV (X i) (X j) = 0 := fun i j => (hpair i i.2 j j.2).2.1
  have hZZ : ∀ i j, sympV (Z i) (Z j) = 0 := fun i j => (hpair i i.2 j j.2).2.2
  have hseen : ∀ E : Pauli n, (seenBy (rowsOf c.logicalX) (rowsOf c.logicalZ) k E).vec = f E.vec := fun E => by
    rw [seenBy_eq s c h hb]
    rfl
  have hsurj : Function.Surjective f := by
    intro v
    refine ⟨∑ j, (v.1 j • X j + v.2 j • Z j), ?_⟩
    rw [map_sum]
    refine Prod.ext (funext fun i => ?_) (funext fun i => ?_)
    · have e : ∀ j, (f (v.1 j • X j + v.2 j • Z j)).1 i = if j = i then v.1 j else 0 := by
        intro j
        show sympV (Z i) (v.1 j • X j + v.2 j • Z j) = _
        rw [sympV_add_right, sympV_smul_right, sympV_smul_right, hZZ, sympV_comm, hXZ]
        split_ifs <;> simp
      rw [Prod.fst_sum, Finset.sum_apply]
      simp only [e]
      simp
    · have e : ∀ j, (f (v.1 j • X j + v.2 j • Z j)).2 i = if j = i then v.2 j else 0 := by
        intro j
        show sympV (X i) (v.1 j • X j + v.2 j • Z j) = _
        rw [sympV_add_right, sympV_smul_right, sympV_smul_right, hXX, hXZ]
        by_cases e : i = j
        · simp [e]
        · simp [e, Ne.symm e]
      rw [Prod.snd_sum, Finset.sum_apply]
      simp only [e]
      simp
  have hcard : ∀ m : ℕ, Fintype.card (BVec m) = 4 ^ m := by
    intro m
    rw [show (4 : ℕ) = 2 * 2 from rfl, mul_pow]
    simp [BVec, Fintype.card_prod, ZMod.card]
  have hset : {E : Pauli n | seenBy (rowsOf c.logicalX) (rowsOf c.logicalZ) k E = L}.ncard =
      (Finset.univ.filter fun v : BVec n => f v = L.vec).card := by
    rw [← Set.ncard_coe_finset]
    refine Set.ncard_congr (fun E _ => E.vec) ?_ ?_ ?_
    · intro E hE
      simp only [Finset.coe_filter, Finset.mem_univ, true_and, Set.mem_ofPred_eq] at hE ⊢
      rw [← hseen, hE]
    · intro E E' _ _ e
      rw [← ofVec_vec E, ← ofVec_vec E', e]
    · intro v hv
      simp only [Finset.coe_filter, Finset.mem_univ, true_and, Set.mem_ofPred_eq] at hv ⊢
      refine ⟨ofVec v, ?_, rfl⟩
      rw [← ofVec_vec (seenBy (rowsOf c.logicalX) (rowsOf c.logicalZ) k (ofVec v)), hseen, show (ofVec v).vec = v from rfl, hv, ofVec_vec]
  rw [hset]
  have hfib : ∀ w : BVec k, (Finset.univ.filter fun v : BVec n => f v = w).card =
      (Finset.univ.filter fun v : BVec n => f v = L.vec).card := by
    intro w
    obtain ⟨a, ha⟩ := hsurj (L.vec - w)
    refine Finset.card_bij (fun v _ => v + a) ?_ (fun _ _ _ _ e => add_right_cancel e) ?_
    · intro v hv
      simp only [Finset.mem_filter, Finset.mem_univ, true_and] at hv ⊢
      rw [map_add, hv, ha]
      abel
    · intro v hv
      simp only [Finset.mem_filter, Finset.mem_univ, true_and] at hv
      refine ⟨v - a, ?_, by abel⟩
      simp only [Finset.mem_filter, Finset.mem_univ, true_and]
      rw [map_sub, hv, ha]
      abel
  have htot := Finset.card_eq_sum_card_fiberwise (f := f) (s := (Finset.univ : Finset (BVec n))) (t := (Finset.univ : Finset (BVec k)))
    (fun _ _ => Finset.mem_coe.mpr (Finset.mem_univ _))
  simp only [hfib, Finset.sum_const, Finset.card_univ, hcard, smul_eq_mul] at htot
  have hkn : k ≤ n := by
    by_contra hlt
    have h1 : 0 < (Finset.univ.filter fun v : BVec n => f v = L.vec).card := by
      obtain ⟨v, hv⟩ := hsurj L.vec
      exact Finset.card_pos.mpr ⟨v, by simp [hv]⟩
    have h2 : 4 ^ n < 4 ^ k := Nat.pow_lt_pow_right (by norm_num) (by omega)
    have h3 : 4 ^ k * 1 ≤ 4 ^ k * (Finset.univ.filter fun v : BVec n => f v = L.vec).card := Nat.mul_le_mul_left _ h1
    omega
  have hp : 4 ^ n = 4 ^ k * 4 ^ (n - k) := by rw [← pow_add]; congr 1; omega
  rw [hp] at htot
  exact (Nat.eq_of_mul_eq_mul_left (by positivity) htot).symm

/-- A state to which a uniformly random Pauli operator is applied is maximally mixed. -/
theorem twirl_pure {α : Amp k} (hα : Normalised α) :
    (∑ L : Pauli k, pureState (pauliAct L α)) = (2 ^ k : ℂ) • (1 : Matrix (Fin k → ZMod 2) (Fin k → ZMod 2) ℂ) := by
  let e : BVec k ≃ Pauli k := ⟨ofVec, Pauli.vec, fun _ => rfl, fun _ => rfl⟩
  rw [← Equiv.sum_comp e]
  ext x y
  rw [Matrix.sum_apply]
  have key : ∀ v : BVec k, pureState (pauliAct (e v) α) x y =
      (sgn (dotp v.2 (x + y)) : ℂ) * (α (x + v.1) * star (α (y + v.1))) := by
    intro v
    show pauliAct (ofVec v) α x * star (pauliAct (ofVec v) α y) = _
    rw [pauliAct_apply, pauliAct_apply]
    show (sgn (dotp v.2 (x + v.1)) : ℂ) * α (x + v.1) * star ((sgn (dotp v.2 (y + v.1)) : ℂ) * α (y + v.1)) = _
    have hs : star (sgn (dotp v.2 (y + v.1)) : ℂ) = sgn (dotp v.2 (y + v.1)) := by
      rcases zmod2_cases (dotp v.2 (y + v.1)) with e | e <;> rw [e] <;> simp
    have hxy : dotp v.2 (x + y) = dotp v.2 (x + v.1) + dotp v.2 (y + v.1) := by
      have : x + y = (x + v.1) + (y + v.1) := by
        funext i
        have h2 : v.1 i + v.1 i = 0 := CharTwo.add_self_eq_zero _
        simp only [Pi.add_apply]
        linear_combination -h2
      rw [this, dotp_add_right]
    rw [star_mul', hs, hxy, sgn_add]
    ring
  simp only [key]
  rw [Fintype.sum_prod_type]
  have inner : ∀ a : Fin k → ZMod 2, (∑ z : Fin k → ZMod 2, (sgn (dotp z (x + y)) : ℂ) * (α (x + a) * star (α (y + a)))) =
      (if x = y then 2 ^ k else 0) * (α (x + a) * star (α (y + a))) := by
    intro a
    rw [← Finset.sum_mul, sum_sgn_dotp]
    have : x + y = 0 ↔ x = y := by
      have : x - y = x + y := by
        funext i
        exact CharTwo.sub_eq_add _ _
      rw [← this, sub_eq_zero]
    simp only [this]
  simp only [inner]
  by_cases hxy : x = y
  · subst hxy
    have : ∀ a, α (x + a) * star (α (x + a)) = ((Complex.normSq (α (x + a)) : ℝ) : ℂ) := by
      intro a
      rw [← Complex.mul_conj]
      rfl
    simp only [this, if_true]
    have hsum : (∑ a, Complex.normSq (α (x + a))) = 1 :=
      (Equiv.sum_comp (Equiv.addLeft x) (fun b => Complex.normSq (α b))).trans hα
    rw [← Finset.mul_sum, ← Complex.ofReal_sum, hsum]
    simp
  · simp [hxy]

/-- **C151, complete noise**.  If all `4^n` Pauli errors are equally likely, the decoded qubits are maximally mixed, whatever was
encoded. -/
theorem C151_uniform (s : StabInput) (c : StabCode) (h : stabInit s n k none = .ok c) (hb : BinaryArr c.stab)
    (len : ℕ) (addAncilla : Bool) (hla : (len = n ∧ addAncilla = true) ∨ (len = n + k ∧ addAncilla = false)) :
    ∃ (enc : (Fin k → ZMod 2) → List Gate) (dec : List Gate),
      (∀ δ, encodingCircuit c n (bitsList δ) = .ok (enc δ)) ∧ decodingCircuit c len addAncilla = .ok dec ∧
      ∀ α : (Fin k → ZMod 2) → ℂ, Normalised α →
        (∑ E : Pauli n, (1 / 4 ^ n : ℂ) •
          lastQubits (run dec (tensor (pauliAct E (∑ δ, α δ • (run (enc δ) (ket 0) : Amp n))) (ket 0)))) =
          (1 / 2 ^ k : ℂ) • (1 : Matrix (Fin k → ZMod 2) (Fin k → ZMod 2) ℂ) := by
  classical
  obtain ⟨enc, dec, henc, hdec, hrun⟩ := C151_channel s c h hb len addAncilla hla
  refine ⟨enc, dec, henc, hdec, fun α hα => ?_⟩
  have key := hrun (fun _ => 1 / 4 ^ n) α
  have hq : ((1 / 4 ^ n : ℝ) : ℂ) = 1 / 4 ^ n := by push_cast; rfl
  simp only [hq] at key
  rw [key]
  have hkn : k ≤ n := by
    obtain ⟨hk, -⟩ := C139_superposition s c h hb
    exact hk
  have hw : ∀ L : Pauli k, ((∑ E : Pauli n, if seenBy (rowsOf c.logicalX) (rowsOf c.logicalZ) k E = L then (1 / 4 ^ n : ℝ) else 0 : ℝ) : ℂ) =
      1 / 4 ^ k := by
    intro L
    have hc := C151_count s c h hb L
    rw [← Finset.sum_filter, Finset.sum_const, nsmul_eq_mul]
    have : (Finset.univ.filter fun E : Pauli n => seenBy (rowsOf c.logicalX) (rowsOf c.logicalZ) k E = L).card = 4 ^ (n - k) := by
      rw [← hc, ← Set.ncard_coe_finset]
      congr 1
      ext E
      simp
    rw [this]
    have hp : (4 : ℂ) ^ n = 4 ^ k * 4 ^ (n - k) := by rw [← pow_add]; congr 1; omega
    push_cast
    rw [hp]
    field_simp
  simp only [hw]
  rw [← Finset.smul_sum, twirl_pure hα, smul_smul]
  congr 1
  rw [show (4 : ℂ) = 2 * 2 by norm_num, mul_pow]
  field_simp

open Classical in
/-- **C151, with corrections**.  The same with any number of rounds of error correction before decoding: measure all rows of the
normal form, apply the row a table holds for the results.  Errors before the rounds are drawn together, list `es i` with
weight `q i`.  The decoded qubits are in the mixture of the encoded state with Pauli operators applied, each with the total weight
of the lists whose errors and corrections multiply up to what it sees. -/
theorem C151_corrected {s : StabInput} {c : StabCode} (h : stabInit s c.n k none = .ok c) (hb : BinaryArr c.stab)
    (hind : Independent c.n c.stab) (hY : ∀ a < c.stab.rows, parityY (rowPauli c.n (c.stab.row a)) = 0)
    (table : List (ZMod 2) → List ℤ) (ht : TableFor c.n table)
    (len : ℕ) (addAncilla : Bool) (hla : (len = c.n ∧ addAncilla = true) ∨ (len = c.n + k ∧ addAncilla = false)) :
    ∃ (enc : (Fin k → ZMod 2) → List Gate) (dec : List Gate),
      (∀ δ, encodingCircuit c c.n (bitsList δ) = .ok (enc δ)) ∧ decodingCircuit c len addAncilla = .ok dec ∧
      ∀ {ι : Type} [Fintype ι] (es : ι → List (List ℤ)) (q : ι → ℝ) (α : (Fin k → ZMod 2) → ℂ), Normalised α →
        (∀ i, ∃ φ, Rounds c table (∑ δ, α δ • (run (enc δ) (ket 0) : Amp c.n)) (es i) φ) ∧
        ∀ φ : ι → Amp c.n, (∀ i, Rounds c table (∑ δ, α δ • (run (enc δ) (ket 0) : Amp c.n)) (es i) (φ i)) →
          (∑ i, (q i : ℂ) • lastQubits (run dec (tensor (φ i) (ket 0)))) =
            ∑ L : Pauli k, ((∑ i, if seenBy (rowsOf c.logicalX) (rowsOf c.logicalZ) k
              (ofVec (leftover c.n c.iter table 0 (es i))) = L then q i else 0 : ℝ) : ℂ) • pureState (pauliAct L α) := by
  obtain ⟨enc, dec, henc, hdec, hrun⟩ := C141_uncorrected s c h hb len addAncilla hla
  refine ⟨enc, dec, henc, hdec, fun {ι} _ es q α hα => ?_⟩
  have hnorm : ∀ δ, Normalised (run (enc δ) (ket 0) : Amp c.n) := by
    intro δ
    obtain ⟨gs, gs', h1, h2, h3⟩ := C139_isometry s c h hb (bitsList δ) (bitsList δ) (bitsList_length δ) (bitsList_binary δ)
      (bitsList_length δ) (bitsList_binary δ)
    rw [henc] at h1 h2
    cases h1
    cases h2
    rw [if_pos rfl] at h3
    exact normalised_of_braket h3
  have hE : Encoded c c.n k (∑ δ, α δ • (run (enc δ) (ket 0) : Amp c.n)) := ⟨enc, henc, α, rfl⟩
  have hN : Normalised (∑ δ, α δ • (run (enc δ) (ket 0) : Amp c.n)) := by
    obtain ⟨enc', f1, -, f3⟩ := encoded_family h hb hind
    have : enc' = enc := funext fun δ => Except.ok.inj ((f1 δ).symm.trans (henc δ))
    subst this
    exact (encoded_norm f3 α).trans hα
  have hsum : (∑ δ, α δ • (ket δ : Amp k)) = α := by
    funext x
    simp [ket, Finset.sum_apply]
  refine ⟨fun i => ?_, fun φ hφ => ?_⟩
  · obtain ⟨ω, -, hω⟩ := C131_rounds h hb hind hY table ht (es i)
    exact ⟨_, (hω _ hE hN _).mpr rfl⟩
  have step : ∀ i, lastQubits (run dec (tensor (φ i) (ket 0))) =
      pureState (pauliAct (seenBy (rowsOf c.logicalX) (rowsOf c.logicalZ) k (ofVec (leftover c.n c.iter table 0 (es i)))) α) := by
    intro i
    obtain ⟨ω, hω, hR⟩ := C131_rounds h hb hind hY table ht (es i)
    rw [(hR _ hE hN _).mp (hφ i), tensor_smul_left, run_smul]
    obtain ⟨w, hw, hE'⟩ := hrun (ofVec (leftover c.n c.iter table 0 (es i)))
    rw [hE' α, hsum, ← tensor_smul_left]
    refine lastQubits_tensor (normalised_smul' hω (normalised_smul' ?_ (normalised_pauli _ (hnorm _)))) _
    rcases hw with e | e <;> simp [e]
  simp only [step]
  have : ∀ L : Pauli k, ((∑ i, if seenBy (rowsOf c.logicalX) (rowsOf c.logicalZ) k
      (ofVec (leftover c.n c.iter table 0 (es i))) = L then q i else 0 : ℝ) : ℂ) • pureState (pauliAct L α) =
      ∑ i, if seenBy (rowsOf c.logicalX) (rowsOf c.logicalZ) k (ofVec (leftover c.n c.iter table 0 (es i))) = L then
        (q i : ℂ) • pureState (pauliAct L α) else 0 := by
    intro L
    rw [Complex.ofReal_sum, Finset.sum_smul]
    refine Finset.sum_congr rfl fun i _ => ?_
    split_ifs
    · rfl
    · rw [Complex.ofReal_zero, zero_smul]
  simp only [this]
  rw [Finset.sum_comm]
  refine Finset.sum_congr rfl fun i _ => ?_
  rw [Finset.sum_ite_eq Finset.univ]
  simp

/-- The five-qubit code with its table of corrections meets the hypotheses. -/
example : ∃ c, stabInit (.rows fiveRows) c.n 1 none = .ok c ∧ BinaryArr c.stab ∧ Independent c.n c.stab ∧
    (∀ a < c.stab.rows, parityY (rowPauli c.n (c.stab.row a)) = 0) ∧ TableFor c.n fiveTable ∧
    ((c.n = c.n ∧ true = true) ∨ (c.n = c.n + 1 ∧ true = false)) := by
  obtain ⟨c, h1, h2, h3, h4, -⟩ := five_code
  have hn : c.n = 5 := (accepted_facts h1 h2 h3).1
  rw [← hn] at h1 h3 h4
  exact ⟨c, h1, h2, h3, h4, by rw [hn]; exact fiveTable_for, Or.inl ⟨rfl, rfl⟩⟩

/-- The code ZIZII, IZIII, ZZZII, IIIIZ with redundant generators meets the hypotheses; of the 1024 errors 256 act as logical X
on the decoded qubit. -/
example : ∃ c, stabInit (.rows redundantRows) 5 1 none = .ok c ∧ BinaryArr c.stab ∧
    ((6 = 5 ∧ false = true) ∨ (6 = 5 + 1 ∧ false = false)) ∧ Normalised (ket 0 : Amp 1) ∧
    {E : Pauli 5 | seenBy (rowsOf c.logicalX) (rowsOf c.logicalZ) 1 E = ⟨fun _ => 1, fun _ => 0⟩}.ncard = 256 := by
  obtain ⟨c, h1, h2, -⟩ := redundant_code
  exact ⟨c, h1, h2, Or.inr ⟨rfl, rfl⟩, by simp [Normalised, ket], C151_count _ c h1 h2 _⟩

end PyQ
