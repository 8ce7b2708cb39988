import Verif.Model.Deallocate
import Verif.Spec.MeasureAll
import Verif.Props.EndToEnd

/-! # C68: decoding and discarding the code qubits -/

namespace PyQ

open Spec

variable {n m : ℕ}

theorem measProb_tensor (ψ : Amp n) {φ : Amp m} (hφ : Normalised φ) {q : ℕ} (hq : q < n) (r : ZMod 2) :
    measProb q r (tensor ψ φ) = measProb q r ψ := by
  unfold measProb
  have h : ∀ b : Fin (n + m) → ZMod 2, (if bitAt b q = r then Complex.normSq (tensor ψ φ b) else 0) =
      (fun (u : Fin n → ZMod 2) (v : Fin m → ZMod 2) =>
        if bitAt u q = r then Complex.normSq (ψ u) * Complex.normSq (φ v) else 0) (leftB b) (rightB b) := by
    intro b
    simp only [bitAt_left b hq, tensor_apply, map_mul]
  rw [Finset.sum_congr rfl fun b _ => h b, sum_split fun (u : Fin n → ZMod 2) (v : Fin m → ZMod 2) =>
        if bitAt u q = r then Complex.normSq (ψ u) * Complex.normSq (φ v) else 0]
  apply Finset.sum_congr rfl
  intro u _
  by_cases hu : bitAt u q = r
  · simp only [if_pos hu]
    rw [← Finset.mul_sum, hφ, mul_one]
  · simp only [if_neg hu, Finset.sum_const_zero]

theorem collapse_tensor (ψ : Amp n) {φ : Amp m} (hφ : Normalised φ) {q : ℕ} (hq : q < n) (r : ZMod 2) :
    collapse q r (tensor ψ φ) = tensor (collapse q r ψ) φ := by
  funext b
  unfold collapse
  rw [measProb_tensor ψ hφ hq, tensor_apply, tensor_apply, bitAt_left b hq]
  split_ifs
  · ring
  · rw [zero_mul]

theorem reads_tensor {φ : Amp m} (hφ : Normalised φ) {qs : List ℕ} {rs : List (ZMod 2)} {p : ℝ} :
    ∀ {ψ : Amp n} {Ψ' : Amp (n + m)}, (∀ q ∈ qs, q < n) →
      (Reads (tensor ψ φ) qs rs p Ψ' ↔ ∃ ψ', Reads ψ qs rs p ψ' ∧ Ψ' = tensor ψ' φ) := by
  induction qs generalizing rs p with
  | nil =>
    intro ψ Ψ' _
    constructor
    · intro h; cases h; exact ⟨ψ, .nil ψ, rfl⟩
    · rintro ⟨ψ', h, rfl⟩; cases h; exact .nil _
  | cons q qs ih =>
    intro ψ Ψ' hqs
    have hq := hqs q (by simp)
    have hqs' : ∀ q' ∈ qs, q' < n := fun q' h' => hqs q' (by simp [h'])
    constructor
    · intro h
      cases h with
      | cons h1 h2 =>
        rw [collapse_tensor ψ hφ hq] at h2
        obtain ⟨ψ', h3, h4⟩ := (ih hqs').mp h2
        refine ⟨ψ', ?_, h4⟩
        rw [measProb_tensor ψ hφ hq] at h1 ⊢
        exact .cons h1 h3
    · rintro ⟨ψ', h, rfl⟩
      cases h with
      | cons h1 h2 =>
        have h3 := (ih hqs').mpr ⟨ψ', h2, rfl⟩
        rw [← collapse_tensor ψ hφ hq] at h3
        rw [← measProb_tensor ψ hφ hq] at h1 ⊢
        exact .cons h1 h3

theorem measProb_nonneg (q : ℕ) (r : ZMod 2) (ψ : Amp n) : 0 ≤ measProb q r ψ := by
  unfold measProb
  exact Finset.sum_nonneg fun b _ => by split_ifs; exact Complex.normSq_nonneg _; exact le_refl _

theorem collapse_normalised {q : ℕ} {r : ZMod 2} {ψ : Amp n} (h : measProb q r ψ ≠ 0) : Normalised (collapse q r ψ) := by
  have hp : 0 < measProb q r ψ := lt_of_le_of_ne (measProb_nonneg q r ψ) (Ne.symm h)
  unfold Normalised
  have e : ∀ b, Complex.normSq (collapse q r ψ b) =
      (measProb q r ψ)⁻¹ * (if bitAt b q = r then Complex.normSq (ψ b) else 0) := by
    intro b
    unfold collapse
    split_ifs
    · rw [map_mul, map_inv₀, Complex.normSq_ofReal, Real.mul_self_sqrt hp.le]
    · simp
  rw [Finset.sum_congr rfl fun b _ => e b, ← Finset.mul_sum]
  exact inv_mul_cancel₀ h

/-- After reading: the amplitudes that disagree with the readings are gone, the others are divided by the square root of
the probability. -/
theorem reads_spec {qs : List ℕ} {rs : List (ZMod 2)} {p : ℝ} :
    ∀ {ψ ψ' : Amp n}, Normalised ψ → Reads ψ qs rs p ψ' → 0 < p ∧ Normalised ψ' ∧ rs.length = qs.length ∧
      ∀ b, ψ' b = if qs.map (bitAt b) = rs then ((Real.sqrt p : ℝ) : ℂ)⁻¹ * ψ b else 0 := by
  induction qs generalizing rs p with
  | nil => intro ψ ψ' hψ h; cases h; exact ⟨one_pos, hψ, rfl, by simp⟩
  | cons q qs ih =>
    intro ψ ψ' hψ h
    cases h with
    | @cons _ _ _ r _ rs p h1 h2 =>
      obtain ⟨k1, k2, k3, k4⟩ := ih (collapse_normalised h1) h2
      have hp : 0 < measProb q r ψ := lt_of_le_of_ne (measProb_nonneg q r ψ) (Ne.symm h1)
      refine ⟨mul_pos hp k1, k2, by simp [k3], ?_⟩
      intro b
      rw [k4 b]
      unfold collapse
      simp only [List.map_cons, List.cons.injEq]
      by_cases e1 : bitAt b q = r <;> by_cases e2 : qs.map (bitAt b) = rs
      · rw [if_pos e2, if_pos e1, if_pos ⟨e1, e2⟩, Real.sqrt_mul hp.le]
        push_cast
        rw [mul_inv]; ring
      · rw [if_neg e2, if_neg fun h => e2 h.2]
      · rw [if_pos e2, if_neg e1, if_neg fun h => e1 h.1, mul_zero]
      · rw [if_neg e2, if_neg fun h => e2 h.2]

theorem reads_exists (b : Fin n → ZMod 2) (qs : List ℕ) :
    ∀ {ψ : Amp n}, ψ b ≠ 0 → ∃ p ψ', Reads ψ qs (qs.map (bitAt b)) p ψ' := by
  induction qs with
  | nil => intro ψ _; exact ⟨1, ψ, .nil ψ⟩
  | cons q qs ih =>
    intro ψ hb
    have hp : 0 < measProb q (bitAt b q) ψ := by
      have := Finset.single_le_sum (f := fun b' => if bitAt b' q = bitAt b q then Complex.normSq (ψ b') else 0)
        (fun b' _ => by split_ifs; exact Complex.normSq_nonneg _; exact le_refl _) (Finset.mem_univ b)
      simp only [if_true] at this
      exact lt_of_lt_of_le (Complex.normSq_pos.mpr hb) this
    have hc : collapse q (bitAt b q) ψ b ≠ 0 := by
      unfold collapse
      rw [if_pos rfl]
      refine mul_ne_zero (inv_ne_zero ?_) hb
      rw [Complex.ofReal_ne_zero]
      exact (Real.sqrt_pos.mpr hp).ne'
    obtain ⟨p, ψ', h⟩ := ih hc
    exact ⟨_, ψ', .cons hp.ne' h⟩

theorem map_bitAt_inj {b b' : Fin n → ZMod 2} : (List.range n).map (bitAt b) = (List.range n).map (bitAt b') ↔ b = b' := by
  constructor
  · intro h
    funext j
    have := List.map_inj_left.mp h j.1 (List.mem_range.mpr j.2)
    rwa [bitAt_of_lt b j.2, bitAt_of_lt b' j.2] at this
  · rintro rfl; rfl

theorem list_eq_bits {rs : List (ZMod 2)} (h : rs.length = n) : ∃ b : Fin n → ZMod 2, rs = (List.range n).map (bitAt b) := by
  refine ⟨fun j => rs[j.1]'(by omega), ?_⟩
  apply List.ext_getElem
  · simp [h]
  · intro i h1 h2
    rw [List.getElem_map, List.getElem_range, bitAt_of_lt _ (by omega)]

/-- Reading all qubits of a state gives the bits `b` with probability `|ψ b|²` and leaves `|b⟩`. -/
theorem reads_all {ψ : Amp n} (hψ : Normalised ψ) {rs : List (ZMod 2)} {p : ℝ} {ψ' : Amp n}
    (h : Reads ψ (List.range n) rs p ψ') :
    ∃ (b : Fin n → ZMod 2) (u : ℂ), rs = (List.range n).map (bitAt b) ∧ p = Complex.normSq (ψ b) ∧ Complex.normSq u = 1 ∧
      ψ' = u • ket b := by
  obtain ⟨hp, hn, hl, hs⟩ := reads_spec hψ h
  obtain ⟨b, rfl⟩ := list_eq_bits (n := n) (by simpa using hl)
  have e : ψ' = (((Real.sqrt p : ℝ) : ℂ)⁻¹ * ψ b) • ket b := by
    funext b'
    rw [hs b']
    show _ = ((Real.sqrt p : ℝ) : ℂ)⁻¹ * ψ b * (if b' = b then 1 else 0)
    by_cases hb : b' = b
    · subst hb; simp
    · rw [if_neg fun h => hb (map_bitAt_inj.mp h), if_neg hb, mul_zero]
  have hu : Complex.normSq (((Real.sqrt p : ℝ) : ℂ)⁻¹ * ψ b) = 1 := by
    have hn' := hn
    rw [e] at hn'
    unfold Normalised at hn'
    rw [Finset.sum_eq_single b] at hn'
    · simpa [ket] using hn'
    · intro b' _ hb'; simp [ket, hb']
    · simp
  refine ⟨b, _, rfl, ?_, hu, e⟩
  rw [map_mul, map_inv₀, Complex.normSq_ofReal, Real.mul_self_sqrt hp.le] at hu
  field_simp at hu
  exact hu.symm

/-- **C68**.  Let `enc δ` be the gates of `encoding_circuit`.  `decoding_circuit` with `deallocate_nqubits=True`, called
with `n` qubits and asked for ancillas or with `n + k` qubits, sends its gates, measures exactly the `n` code qubits, and
returns the `k` ancillas.  If the code qubits held `∑ α_δ enc δ|0⟩`, then whatever is read, the state left is a basis state
on the code qubits times the logical state `∑ α_δ |δ⟩` on the ancillas (up to a global phase); the readings `b` occur with
probability `|⟨b|enc 0⟩|²`, which does not depend on the logical state, and every such `b` of positive probability occurs. -/
theorem C68_decode_discard (s : StabInput) (n k : ℕ) (c : StabCode) (h : stabInit s n k none = .ok c)
    (hb : BinaryArr c.stab) (hind : Independent n c.stab) (len : ℕ) (addAncilla : Bool)
    (hla : (len = n ∧ addAncilla = true) ∨ (len = n + k ∧ addAncilla = false)) :
    ∃ (enc : (Fin k → ZMod 2) → List Gate) (R : DecodeRun),
      (∀ δ, encodingCircuit c n (bitsList δ) = .ok (enc δ)) ∧
      decodingRun c len addAncilla true = .ok R ∧ (∀ g ∈ R.gates, g.WF (n + k)) ∧
      R.measured = List.range n ∧ R.returned = List.range' n k ∧
      ∀ α : (Fin k → ZMod 2) → ℂ, ∑ δ, Complex.normSq (α δ) = 1 →
        (∀ rs p Ψ, Reads (run R.gates (tensor (∑ δ, α δ • (run (enc δ) (ket 0) : Amp n)) (ket 0))) R.measured rs p Ψ →
          ∃ (b : Fin n → ZMod 2) (u : ℂ), rs = (List.range n).map (bitAt b) ∧ Complex.normSq u = 1 ∧
            p = Complex.normSq ((run (enc 0) (ket 0) : Amp n) b) ∧ Ψ = u • tensor (ket b) (∑ δ, α δ • ket δ)) ∧
        (∀ b : Fin n → ZMod 2, (run (enc 0) (ket 0) : Amp n) b ≠ 0 → ∃ p Ψ,
          Reads (run R.gates (tensor (∑ δ, α δ • (run (enc δ) (ket 0) : Amp n)) (ket (0 : Fin k → ZMod 2)))) R.measured
            ((List.range n).map (bitAt b)) p Ψ) := by
  obtain ⟨hn, hk, -⟩ := accepted_facts h hb hind
  obtain ⟨enc, dec, e1, e2, e3, e4⟩ := C15_decoding s n k c h hb hind len addAncilla hla
  have hnorm0 : Normalised (run (enc 0) (ket 0) : Amp n) := by
    obtain ⟨enc', f1, -, f2⟩ := encoded_family h hb hind
    have e : enc' 0 = enc 0 := Except.ok.inj ((f1 0).symm.trans (e1 0))
    rw [← e]
    exact normalised_of_braket (by rw [f2, if_pos rfl])
  have hR : ∃ reg, decodingRun c len addAncilla true = .ok ⟨dec, List.range n, List.range' n k, reg⟩ := by
    unfold decodingRun
    rw [e2, ok_bind']
    rcases hla with ⟨rfl, rfl⟩ | ⟨rfl, rfl⟩
    · refine ⟨List.range len, ?_⟩
      simp [decodingReturn, hk, pure_ok']
    · refine ⟨(List.range (n + k)).drop c.n, ?_⟩
      have : (List.range (n + k)).take n = List.range n := by
        rw [List.take_range]; congr 1; omega
      simp [decodingReturn, hn, this, pure_ok']
  obtain ⟨reg, hR⟩ := hR
  refine ⟨enc, _, e1, hR, e3, rfl, rfl, ?_⟩
  intro α hα
  have hφ : Normalised (∑ δ, α δ • ket δ : Amp k) := by
    have : (∑ δ, α δ • ket δ : Amp k) = α := by
      funext b
      rw [Finset.sum_apply, Finset.sum_eq_single b]
      · simp [ket]
      · intro b' _ hb'; simp [ket, Ne.symm hb']
      · simp
    rw [this]; exact hα
  constructor
  · intro rs p Ψ hr
    rw [e4 α] at hr
    obtain ⟨ψ', r1, r2⟩ := (reads_tensor hφ fun q hq => List.mem_range.mp hq).mp hr
    obtain ⟨b, u, q1, q2, q3, q4⟩ := reads_all hnorm0 r1
    refine ⟨b, u, q1, q3, q2, ?_⟩
    rw [r2, q4]
    funext x
    show u * ket b _ * _ = u * (ket b _ * _)
    ring
  · intro b hb'
    rw [e4 α]
    obtain ⟨p, ψ', hr⟩ := reads_exists b (List.range n) hb'
    exact ⟨p, _, (reads_tensor hφ fun q hq => List.mem_range.mp hq).mpr ⟨ψ', hr, rfl⟩⟩

/-- The hypotheses are met by the `[[4,2]]` code. -/
example : ∃ c, stabInit (.rows [[1, 1, 1, 1, 0, 0, 0, 0], [0, 0, 0, 0, 1, 1, 1, 1]]) 4 2 none = .ok c ∧
    BinaryArr c.stab ∧ Independent 4 c.stab ∧ ((4 = 4 ∧ true = true) ∨ (4 = 4 + 2 ∧ true = false)) := by
  obtain ⟨c, h1, h2, h3, -⟩ := code422
  exact ⟨c, h1, h2, h3, Or.inl ⟨rfl, rfl⟩⟩

/-- **C68**, the list of the caller.  If the ancillas were part of the register, the list passed by the caller is cut down
to the ancillas and then equals the list returned.  If the ancillas were added, the list passed by the caller is unchanged:
it still holds all measured qubits, although the documentation says that they are deleted. -/
theorem C68_register (c : StabCode) (len : ℕ) (R : DecodeRun) :
    (decodingRun c len false true = .ok R → R.register = List.range' c.n (len - c.n) ∧ R.returned = R.register) ∧
    (decodingRun c len true true = .ok R → R.register = List.range len ∧ R.measured = R.register) ∧
    (∀ add, decodingRun c len add false = .ok R → R.register = List.range len ∧ R.measured = []) := by
  unfold decodingRun
  refine ⟨?_, ?_, ?_⟩
  · cases decodingCircuit c len false with
    | error e => intro h; cases h
    | ok gs =>
      intro h
      cases Except.ok.inj h
      refine ⟨?_, ?_⟩
      · show (List.range len).drop c.n = _
        rw [List.range_eq_range', List.drop_range']; simp
      · show List.range' c.n (len - c.n) = (List.range len).drop c.n
        rw [List.range_eq_range', List.drop_range']; simp
  · cases decodingCircuit c len true with
    | error e => intro h; cases h
    | ok gs => intro h; cases Except.ok.inj h; exact ⟨rfl, rfl⟩
  · intro add
    cases decodingCircuit c len add with
    | error e => intro h; cases h
    | ok gs => intro h; cases Except.ok.inj h; exact ⟨rfl, rfl⟩

end PyQ
