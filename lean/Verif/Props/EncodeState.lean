import Verif.Props.EndToEnd

/-! # C89: encoding a state that is already in the last `k` qubits -/

namespace PyQ

open Spec

/-- The register with `ψ` on the last `k` qubits and all other qubits zero. -/
def Spec.onLast (n : ℕ) {k : ℕ} (hk : k ≤ n) (ψ : Amp k) : Amp n := fun b =>
  if ∀ j : Fin n, j.val < n - k → b j = 0 then ψ (fun i => b ⟨n - k + i, by omega⟩) else 0

/-- The basis state with the bits `δ` on the last `k` qubits. -/
def lastBits (n : ℕ) {k : ℕ} (δ : Fin k → ZMod 2) : Fin n → ZMod 2 := fun j =>
  if h : n - k ≤ j.val ∧ j.val - (n - k) < k then δ ⟨j.val - (n - k), h.2⟩ else 0

theorem lastBits_add (n : ℕ) {k : ℕ} (δ σ : Fin k → ZMod 2) : lastBits n (δ + σ) = lastBits n δ + lastBits n σ := by
  funext j
  unfold lastBits
  rw [Pi.add_apply]
  split_ifs
  · rfl
  · rw [add_zero]

theorem onLast_sum {n k : ℕ} (hk : k ≤ n) (ψ : Amp k) : onLast n hk ψ = ∑ δ, ψ δ • ket (lastBits n δ) := by
  funext b
  rw [Finset.sum_apply]
  simp only [Pi.smul_apply, smul_eq_mul, ket, mul_ite, mul_one, mul_zero]
  unfold onLast
  by_cases h : ∀ j : Fin n, j.val < n - k → b j = 0
  · rw [if_pos h, Finset.sum_eq_single (fun i : Fin k => b ⟨n - k + i, by omega⟩)]
    · rw [if_pos]
      funext j
      unfold lastBits
      by_cases hj : n - k ≤ j.val
      · rw [dif_pos ⟨hj, by omega⟩]
        congr 1
        apply Fin.ext
        simp only
        omega
      · rw [dif_neg (by omega), h j (by omega)]
    · intro δ _ hne
      rw [if_neg]
      rintro rfl
      apply hne
      funext i
      unfold lastBits
      rw [dif_pos ⟨by simp, by simp⟩]
      congr 1
      apply Fin.ext
      simp
    · simp
  · rw [if_neg h, Finset.sum_eq_zero]
    intro δ _
    rw [if_neg]
    rintro rfl
    apply h
    intro j hj
    unfold lastBits
    rw [dif_neg (by omega)]

/-- **C89**.  `encoding_circuit` with the bits `σ`, sent to a register that holds any state `ψ` on its last `k` qubits and
zeros elsewhere, gives the superposition of the encoded states of `δ + σ` with the amplitudes of `ψ`.  In particular
`encoding_circuit` with zeros encodes `ψ`. -/
theorem C89_superposition (s : StabInput) (n k : ℕ) (c : StabCode) (h : stabInit s n k none = .ok c)
    (hb : BinaryArr c.stab) (hind : Independent n c.stab) :
    ∃ hk : k ≤ n, ∃ enc : (Fin k → ZMod 2) → List Gate, (∀ δ, encodingCircuit c n (bitsList δ) = .ok (enc δ)) ∧
      (∀ (σ : Fin k → ZMod 2) (ψ : Amp k), run (enc σ) (onLast n hk ψ) = ∑ δ, ψ δ • run (enc (δ + σ)) (ket 0)) ∧
      (∀ ψ : Amp k, run (enc 0) (onLast n hk ψ) = ∑ δ, ψ δ • run (enc δ) (ket 0)) := by
  obtain ⟨hn, hk, hst, hsh, hX, -, -⟩ := accepted_facts h hb hind
  have hr := hsh.rows
  obtain ⟨gs, -, -, -, rest, -, hrest⟩ := encoding_ok hn hk hst hsh hX (bitsList 0) (bitsList_length _) (bitsList_binary _)
  have hprep : ∀ (σ : Fin k → ZMod 2) (b : Fin n → ZMod 2),
      run ((bitsList σ).zipIdx.flatMap (prepG (n - k))) (ket b) = ket (b + lastBits n σ) := by
    intro σ b
    have hl := bitsList_length σ
    rw [show (bitsList σ).zipIdx = (bitsList σ).zipIdx 0 from rfl, run_prepG (n - k) 0 _ (bitsList_binary σ) (by omega)]
    congr 1
    funext j
    rw [Pi.add_apply]
    congr 1
    unfold lastBits
    by_cases hj : n - k ≤ j.val
    · rw [if_pos (by omega), dif_pos ⟨hj, by omega⟩]
      have := bitFn_bitsList σ (j.val - (n - k))
      rw [dif_pos (by omega)] at this
      simpa [bitFn] using this
    · rw [if_neg (by omega), dif_neg (by omega)]
  have key : ∀ (σ : Fin k → ZMod 2) (ψ : Amp k),
      run ((bitsList σ).zipIdx.flatMap (prepG (n - k)) ++ rest) (onLast n (by omega) ψ) =
        ∑ δ, ψ δ • run ((bitsList (δ + σ)).zipIdx.flatMap (prepG (n - k)) ++ rest) (ket 0) := by
    intro σ ψ
    rw [onLast_sum, run_sum]
    apply Finset.sum_congr rfl
    intro δ _
    rw [run_smul, run_append, run_append, hprep, hprep, zero_add, lastBits_add]
  refine ⟨by omega, fun δ => (bitsList δ).zipIdx.flatMap (prepG (n - k)) ++ rest,
    fun δ => hrest _ (bitsList_length δ) (bitsList_binary δ), key, fun ψ => ?_⟩
  have := key 0 ψ
  simpa only [add_zero] using this

/-- A superposition on the last two qubits of a register of four. -/
example : onLast 4 (by decide : 2 ≤ 4) (fun b => if b = 0 then 1 else if b = 1 then Complex.I else 0 : Amp 2) ![0, 0, 1, 1] =
    Complex.I := by
  unfold onLast
  rw [if_pos (by decide)]
  simp only
  rw [if_neg (by decide), if_pos (by decide)]

/-- The hypotheses are met by the code with generators XXXX and ZZZZ. -/
example : ∃ s c, stabInit s 4 2 none = .ok c ∧ BinaryArr c.stab ∧ Independent 4 c.stab := by
  obtain ⟨c, h1, hb, hi, -⟩ := code422
  exact ⟨_, c, h1, hb, hi⟩

end PyQ
