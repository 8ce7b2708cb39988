import Verif.Props.SameCode
import Verif.Spec.Rounds

/-! # C131: error correction repeated any number of times -/

namespace PyQ

open Spec Module

theorem scanl_tail_sums (a : ZMod 2) (ss : List (ZMod 2)) : (ss.scanl (· + ·) a).tail = runningSums a ss := by
  induction ss generalizing a with
  | nil => rfl
  | cons s ss ih =>
    rw [List.scanl_cons, List.tail_cons]
    have : (ss.scanl (· + ·) (a + s)) = (a + s) :: (ss.scanl (· + ·) (a + s)).tail := by cases ss <;> simp
    rw [this, ih, runningSums]

theorem runningSums_last (a : ZMod 2) (ss : List (ZMod 2)) : (runningSums a ss).getLastD a = a + ss.sum := by
  induction ss generalizing a with
  | nil => simp [runningSums]
  | cons s ss ih =>
    rw [runningSums, List.getLastD_cons, ih, List.sum_cons, add_assoc]

theorem changes_sums (a : ZMod 2) (ss : List (ZMod 2)) : changes a (runningSums a ss) = ss := by
  induction ss generalizing a with
  | nil => rfl
  | cons s ss ih =>
    rw [runningSums, changes, ih]
    congr 1
    have : a + a = 0 := by rw [← two_mul]; exact zero_mul _
    rw [add_right_comm, this, zero_add]

theorem normSq_sgn (t : ZMod 2) : Complex.normSq (sgn t : ℂ) = 1 := by
  rcases zmod2_cases t with rfl | rfl <;> simp [sgn]

theorem normalised_smul' {n : ℕ} {z : ℂ} (hz : Complex.normSq z = 1) {φ : Amp n} (h : Normalised φ) : Normalised (z • φ) := by
  unfold Normalised at *
  simp only [Pi.smul_apply, smul_eq_mul, Complex.normSq_mul, hz, one_mul]
  exact h

theorem tensor_qubit_left {n : ℕ} {φ φ' : Amp n} {a b : ZMod 2} (hφ : Normalised φ)
    (h : tensor φ' (qubit b) = tensor φ (qubit a)) : φ' = φ := by
  by_cases hab : b = a
  · subst hab; exact tensor_qubit_inj h
  · exfalso
    have h0 : φ = 0 := by
      funext u
      have h' := congrFun h (Fin.append u fun _ : Fin 1 => a)
      have h1 : leftB (Fin.append u fun _ : Fin 1 => a) = u := by funext j; unfold leftB; rw [Fin.append_left]
      have h2 : rightB (Fin.append u fun _ : Fin 1 => a) = fun _ => a := by funext j; unfold rightB; rw [Fin.append_right]
      rw [tensor_apply, tensor_apply, h1, h2] at h'
      unfold qubit ket at h'
      rw [if_pos rfl, mul_one, if_neg (fun he => hab (congrFun he 0).symm), mul_zero] at h'
      exact h'.symm
    subst h0
    simp [Normalised] at hφ

section
variable {s : StabInput} {k : ℕ} {c : StabCode}

/-- The rows are arguments the measurement accepts, and the state they are measured on is an eigenstate of each. -/
theorem round_valid (h : stabInit s c.n k none = .ok c) (hb : BinaryArr c.stab) (hind : Independent c.n c.stab) {ψ : Amp c.n}
    (hfix : ∀ g ∈ c.iter, pauliAct (rowPauli c.n g) ψ = ψ) (z : ℂ) (v : BVec c.n) :
    ∀ st ∈ c.iter.map StabArg.bin, st.Valid c.n ∧
      pauliAct (st.pauli c.n) (z • pauliAct (ofVec v) ψ) = (sgn (symp (st.pauli c.n) (ofVec v)) : ℂ) • (z • pauliAct (ofVec v) ψ) := by
  obtain ⟨-, -, -, hsh, -, -, -⟩ := accepted_facts h hb hind
  intro st hst
  obtain ⟨g, hg, rfl⟩ := List.mem_map.mp hst
  have hf := hfix g hg
  obtain ⟨a, ha, rfl⟩ := iter_mem.mp hg
  refine ⟨⟨by rw [row_length, hsh.cols], row_binary hsh.binary ha⟩, ?_⟩
  show pauliAct (rowPauli c.n _) _ = _
  rw [pauliAct_smul, pauliAct_comm, hf, smul_comm]
  rfl

theorem signs_map (v : BVec c.n) : (c.iter.map StabArg.bin).map (fun st => symp (st.pauli c.n) (ofVec v)) = signs c.n c.iter v := by
  rw [List.map_map]; rfl

theorem pauliAct_ofVec_add (u v : BVec c.n) (ψ : Amp c.n) :
    pauliAct (ofVec u) (pauliAct (ofVec v) ψ) = (sgn (dotp u.2 v.1) : ℂ) • pauliAct (ofVec (v + u)) ψ := by
  rw [pauliAct_comp, add_comm v u]; rfl

theorem rounds_from (h : stabInit s c.n k none = .ok c) (hb : BinaryArr c.stab) (hind : Independent c.n c.stab)
    {table : List (ZMod 2) → List ℤ} (ht : TableFor c.n table) (es : List (List ℤ)) (v : BVec c.n) :
    ∃ ω : ℂ, Complex.normSq ω = 1 ∧ ∀ ψ : Amp c.n, Normalised ψ → (∀ g ∈ c.iter, pauliAct (rowPauli c.n g) ψ = ψ) →
      ∀ z : ℂ, Complex.normSq z = 1 → ∀ φ, Rounds c table (z • pauliAct (ofVec v) ψ) es φ ↔
        φ = (ω * z) • pauliAct (ofVec (leftover c.n c.iter table v es)) ψ := by
  induction es generalizing v with
  | nil =>
    refine ⟨1, by simp, fun ψ _ _ z _ φ => ⟨fun hr => ?_, ?_⟩⟩
    · cases hr; rw [one_mul]; rfl
    · rintro rfl; rw [one_mul]; exact Rounds.nil _
  | cons e es ih =>
    set p := (rowPauli c.n e).vec with hp
    set r := table (signs c.n c.iter (v + p)) with hr
    obtain ⟨ω, hω, hall⟩ := ih (v + p + (rowPauli c.n r).vec)
    obtain ⟨corr, str, c1, -, -, c4⟩ := C48_apply_stabilizer c.n r (ht _).1 (ht _).2
    set σ : ℂ := sgn (dotp p.2 v.1) with hσ
    set τ : ℂ := Complex.I ^ (str.count 'Y') * sgn (dotp (rowPauli c.n r).vec.2 (v + p).1) with hτ
    have hτn : Complex.normSq τ = 1 := by rw [hτ, map_mul, normSq_sgn, map_pow, Complex.normSq_I, one_pow, one_mul]
    have hσn : Complex.normSq σ = 1 := normSq_sgn _
    refine ⟨ω * (τ * σ), by rw [map_mul, map_mul, hω, hτn, hσn]; norm_num, fun ψ hψ hfix z hz φ => ?_⟩
    have hzσ : Complex.normSq (z * σ) = 1 := by rw [map_mul, hz, hσn, one_mul]
    have herr : pauliAct (rowPauli c.n e) (z • pauliAct (ofVec v) ψ) = (z * σ) • pauliAct (ofVec (v + p)) ψ := by
      rw [pauliAct_smul, ← smul_smul]
      congr 1
      exact pauliAct_ofVec_add p v ψ
    have key := C17_fresh_history c ((z * σ) • pauliAct (ofVec (v + p)) ψ) (normalised_smul' hzσ (normalised_pauli _ hψ))
      (fun st => symp (st.pauli c.n) (ofVec (v + p))) _ (round_valid h hb hind hfix (z * σ) (v + p))
    rw [signs_map] at key
    have hcorr : run corr ((z * σ) • pauliAct (ofVec (v + p)) ψ) =
        (τ * (z * σ)) • pauliAct (ofVec (v + p + (rowPauli c.n r).vec)) ψ := by
      rw [run_smul, c4]
      have := pauliAct_ofVec_add (rowPauli c.n r).vec (v + p) ψ
      rw [show pauliAct (rowPauli c.n r) (pauliAct (ofVec (v + p)) ψ) = _ from this, smul_smul, smul_smul, hτ]
      congr 1; ring
    have hτz : Complex.normSq (τ * (z * σ)) = 1 := by rw [map_mul, hτn, hzσ, one_mul]
    have hnext := hall ψ hψ hfix (τ * (z * σ)) hτz φ
    have hfin : ω * (τ * (z * σ)) = ω * (τ * σ) * z := by ring
    rw [hfin] at hnext
    constructor
    · intro hR
      cases hR with
      | cons hh hc hrest =>
        rw [herr] at hh
        obtain ⟨rfl, rfl⟩ := key.1 _ _ hh
        rw [← hr, c1] at hc
        cases hc
        rw [hcorr] at hrest
        exact hnext.mp hrest
    · intro hφ
      refine Rounds.cons (φ' := (z * σ) • pauliAct (ofVec (v + p)) ψ) (rs := signs c.n c.iter (v + p)) (corr := corr) ?_
        (by rw [← hr]; exact c1) ?_
      · rw [herr]; exact key.2
      · rw [hcorr]; exact hnext.mpr hφ

theorem shared_from (h : stabInit s c.n k none = .ok c) (hb : BinaryArr c.stab) (hind : Independent c.n c.stab)
    {table : ZMod 2 → List (ZMod 2) → List ℤ} (ht : ∀ a, TableFor c.n (table a)) (es : List (List ℤ)) (v : BVec c.n) (a : ZMod 2) :
    ∃ ω : ℂ, Complex.normSq ω = 1 ∧ ∀ ψ : Amp c.n, Normalised ψ → (∀ g ∈ c.iter, pauliAct (rowPauli c.n g) ψ = ψ) →
      ∀ z : ℂ, Complex.normSq z = 1 → ∀ φ, SharedRounds c table (z • pauliAct (ofVec v) ψ) a es φ ↔
        φ = (ω * z) • pauliAct (ofVec (leftoverShared c.n c.iter table v a es)) ψ := by
  induction es generalizing v a with
  | nil =>
    refine ⟨1, by simp, fun ψ _ _ z _ φ => ⟨fun hr => ?_, ?_⟩⟩
    · cases hr; rw [one_mul]; rfl
    · rintro rfl; rw [one_mul]; exact SharedRounds.nil _ _
  | cons e es ih =>
    set p := (rowPauli c.n e).vec with hp
    set rs0 := runningSums a (signs c.n c.iter (v + p)) with hrs0
    set r := table a rs0 with hr
    obtain ⟨ω, hω, hall⟩ := ih (v + p + (rowPauli c.n r).vec) (rs0.getLastD a)
    obtain ⟨corr, str, c1, -, -, c4⟩ := C48_apply_stabilizer c.n r (ht _ _).1 (ht _ _).2
    set σ : ℂ := sgn (dotp p.2 v.1) with hσ
    set τ : ℂ := Complex.I ^ (str.count 'Y') * sgn (dotp (rowPauli c.n r).vec.2 (v + p).1) with hτ
    have hτn : Complex.normSq τ = 1 := by rw [hτ, map_mul, normSq_sgn, map_pow, Complex.normSq_I, one_pow, one_mul]
    have hσn : Complex.normSq σ = 1 := normSq_sgn _
    refine ⟨ω * (τ * σ), by rw [map_mul, map_mul, hω, hτn, hσn]; norm_num, fun ψ hψ hfix z hz φ => ?_⟩
    have hzσ : Complex.normSq (z * σ) = 1 := by rw [map_mul, hz, hσn, one_mul]
    have herr : pauliAct (rowPauli c.n e) (z • pauliAct (ofVec v) ψ) = (z * σ) • pauliAct (ofVec (v + p)) ψ := by
      rw [pauliAct_smul, ← smul_smul]
      congr 1
      exact pauliAct_ofVec_add p v ψ
    have key := C17_shared_history c ((z * σ) • pauliAct (ofVec (v + p)) ψ) (normalised_smul' hzσ (normalised_pauli _ hψ))
      (fun st => symp (st.pauli c.n) (ofVec (v + p))) _ (round_valid h hb hind hfix (z * σ) (v + p)) a
    rw [signs_map, scanl_tail_sums] at key
    have hcorr : run corr ((z * σ) • pauliAct (ofVec (v + p)) ψ) =
        (τ * (z * σ)) • pauliAct (ofVec (v + p + (rowPauli c.n r).vec)) ψ := by
      rw [run_smul, c4]
      have := pauliAct_ofVec_add (rowPauli c.n r).vec (v + p) ψ
      rw [show pauliAct (rowPauli c.n r) (pauliAct (ofVec (v + p)) ψ) = _ from this, smul_smul, smul_smul, hτ]
      congr 1; ring
    have hτz : Complex.normSq (τ * (z * σ)) = 1 := by rw [map_mul, hτn, hzσ, one_mul]
    have hnext := hall ψ hψ hfix (τ * (z * σ)) hτz φ
    have hfin : ω * (τ * (z * σ)) = ω * (τ * σ) * z := by ring
    rw [hfin] at hnext
    constructor
    · intro hR
      cases hR with
      | @cons _ φ' _ _ b _ _ _ _ hh hc hrest =>
        rw [herr] at hh
        obtain ⟨rfl, he⟩ := key.1 _ _ hh
        have hb' : φ' = (z * σ) • pauliAct (ofVec (v + p)) ψ := by
          have hn := normalised_smul' hzσ (normalised_pauli (ofVec (v + p)) hψ)
          exact tensor_qubit_left hn he
        subst hb'
        rw [← hrs0, ← hr, c1] at hc
        cases hc
        rw [hcorr] at hrest
        exact hnext.mp hrest
    · intro hφ
      refine SharedRounds.cons (φ' := (z * σ) • pauliAct (ofVec (v + p)) ψ) (b := a + (signs c.n c.iter (v + p)).sum) (rs := rs0)
        (corr := corr) ?_ c1 ?_
      · rw [herr]; exact key.2
      · rw [hcorr]; exact hnext.mpr hφ

theorem encoded_fix (h : stabInit s c.n k none = .ok c) (hb : BinaryArr c.stab) (hind : Independent c.n c.stab)
    (hY : ∀ a < c.stab.rows, parityY (rowPauli c.n (c.stab.row a)) = 0) {ψ : Amp c.n} (hψ : Encoded c c.n k ψ) :
    ∀ g ∈ c.iter, pauliAct (rowPauli c.n g) ψ = ψ := by
  obtain ⟨enc, e1, e2⟩ := C60_encoded_span s c.n k c h hb hind hY
  obtain ⟨enc', e1', α, rfl⟩ := hψ
  have henc : enc' = enc := by
    funext δ
    have h1 := e1' δ
    rw [e1] at h1
    exact (Except.ok.inj h1).symm
  subst henc
  exact ((e2 _).1).mpr ⟨α, rfl⟩

theorem encoded_smul {z : ℂ} {ψ : Amp c.n} (hψ : Encoded c c.n k ψ) : Encoded c c.n k (z • ψ) := by
  obtain ⟨enc, e1, α, rfl⟩ := hψ
  refine ⟨enc, e1, fun δ => z * α δ, ?_⟩
  rw [Finset.smul_sum]
  exact Finset.sum_congr rfl fun δ _ => smul_smul _ _ _

/-- If a Pauli operator acts as one number on the normalised encoded states it is in the group. -/
theorem scalar_mem (h : stabInit s c.n k none = .ok c) (hb : BinaryArr c.stab) (hind : Independent c.n c.stab)
    (hY : ∀ a < c.stab.rows, parityY (rowPauli c.n (c.stab.row a)) = 0) (p : Pauli c.n) (ω : ℂ)
    (hp : ∀ ψ : Amp c.n, Encoded c c.n k ψ → Normalised ψ → pauliAct p ψ = ω • ψ) : p.vec ∈ groupOf c.n c.iter := by
  obtain ⟨r1, r2, r3⟩ := pauliRow_spec p
  obtain ⟨z1, z2, z3⟩ := pauliRow_spec (⟨0, 0⟩ : Pauli c.n)
  obtain ⟨enc, corr, -, e1, e2, -, e4, -⟩ := C61_correction s c.n k c h hb hind hY (pauliRow p) _ z1 z2
  obtain ⟨enc', f1, -, f3⟩ := encoded_family h hb hind
  have henc : enc' = enc := by
    funext δ
    have h1 := f1 δ
    rw [e1] at h1
    exact (Except.ok.inj h1).symm
  subst henc
  obtain ⟨gs, t, g1, -, -, g4⟩ := C48_apply_stabilizer c.n _ z1 z2
  rw [g1] at e2
  cases e2
  have := e4.mp ⟨Complex.I ^ (t.count 'Y') * ω, by
    refine normalised_all (f := fun α => run corr (pauliAct (rowPauli c.n (pauliRow p)) (∑ δ, α δ • (run (enc' δ) (ket 0) : Amp c.n))))
      (g := fun α => (Complex.I ^ (t.count 'Y') * ω) • ∑ δ, α δ • (run (enc' δ) (ket 0) : Amp c.n)) ?_ ?_ ?_
    · intro z α
      simp only [Pi.smul_apply, smul_assoc, ← Finset.smul_sum, pauliAct_smul, run_smul]
    · intro z α
      simp only [Pi.smul_apply, smul_assoc, ← Finset.smul_sum]
      rw [smul_comm]
    · intro α hα
      have hN : Normalised (∑ δ, α δ • (run (enc' δ) (ket 0) : Amp c.n)) := by
        show normSq _ = 1
        rw [encoded_norm f3]; exact hα
      rw [g4, r3, hp _ ⟨enc', f1, α, rfl⟩ hN, z3, pauliAct_one, smul_smul]⟩
  rw [r3, z3] at this
  have e0 : (⟨0, 0⟩ : Pauli c.n).vec = 0 := rfl
  rwa [e0, add_zero] at this

/-- A normalised encoded state. -/
theorem encoded_normalised (h : stabInit s c.n k none = .ok c) (hb : BinaryArr c.stab) (hind : Independent c.n c.stab) :
    ∃ ψ : Amp c.n, Encoded c c.n k ψ ∧ Normalised ψ := by
  obtain ⟨enc, f1, -, f3⟩ := encoded_family h hb hind
  refine ⟨_, ⟨enc, f1, Pi.single 0 1, rfl⟩, ?_⟩
  show normSq _ = 1
  rw [encoded_norm f3]
  show ∑ b, Complex.normSq ((Pi.single 0 1 : (Fin k → ZMod 2) → ℂ) b) = 1
  rw [Finset.sum_eq_single 0] <;> simp +contextual

/-- The state is a given Pauli operator times the state at the beginning, up to a factor: it is the state at the beginning up to a
factor iff the operator is in the group. -/
theorem restored_iff (h : stabInit s c.n k none = .ok c) (hb : BinaryArr c.stab) (hind : Independent c.n c.stab)
    (hY : ∀ a < c.stab.rows, parityY (rowPauli c.n (c.stab.row a)) = 0) {R : Amp c.n → Amp c.n → Prop} {v : BVec c.n} {ω : ℂ}
    (hω : Complex.normSq ω = 1)
    (hR : ∀ ψ, Encoded c c.n k ψ → Normalised ψ → ∀ φ, R ψ φ ↔ φ = ω • pauliAct (ofVec v) ψ) :
    ((∃ z : ℂ, ∀ ψ, Encoded c c.n k ψ → Normalised ψ → ∀ φ, R ψ φ → φ = z • ψ) ↔ v ∈ groupOf c.n c.iter) ∧
    (v ∈ groupOf c.n c.iter → ∃ z : ℂ, Complex.normSq z = 1 ∧ ∀ ψ, Encoded c c.n k ψ → Normalised ψ → ∀ φ, R ψ φ ↔ φ = z • ψ) := by
  have hω0 : ω ≠ 0 := by rintro rfl; simp at hω
  have hback : v ∈ groupOf c.n c.iter → ∃ z : ℂ, Complex.normSq z = 1 ∧ ∀ ψ, Encoded c c.n k ψ → Normalised ψ → ∀ φ, R ψ φ ↔ φ = z • ψ := by
    intro hv
    obtain ⟨t, ht⟩ := group_act v hv
    refine ⟨ω * sgn t, by rw [map_mul, hω, normSq_sgn, one_mul], fun ψ hψ hN φ => ?_⟩
    rw [hR ψ hψ hN, ht ψ (encoded_fix h hb hind hY hψ), smul_smul]
  refine ⟨⟨?_, fun hv => ?_⟩, hback⟩
  · rintro ⟨z, hz⟩
    refine scalar_mem h hb hind hY (ofVec v) (ω⁻¹ * z) fun ψ hψ hN => ?_
    have := hz ψ hψ hN _ ((hR ψ hψ hN _).mpr rfl)
    rw [← smul_smul, ← this, smul_smul, inv_mul_cancel₀ hω0, one_smul]
  · obtain ⟨z, -, hz⟩ := hback hv
    exact ⟨z, fun ψ hψ hN φ hφ => (hz ψ hψ hN φ).mp hφ⟩

/-- **C131**.  An accepted code with independent generators, each with an even number of `Y`s, any table of corrections and any
errors, one in each of any number of rounds.  Whatever is encoded, the rounds can be carried out, and they leave the state with the
operator of `leftover` on it, up to one factor of modulus one. -/
theorem C131_rounds (h : stabInit s c.n k none = .ok c) (hb : BinaryArr c.stab) (hind : Independent c.n c.stab)
    (hY : ∀ a < c.stab.rows, parityY (rowPauli c.n (c.stab.row a)) = 0)
    (table : List (ZMod 2) → List ℤ) (ht : TableFor c.n table) (es : List (List ℤ)) :
    ∃ ω : ℂ, Complex.normSq ω = 1 ∧ ∀ ψ, Encoded c c.n k ψ → Normalised ψ → ∀ φ,
      Rounds c table ψ es φ ↔ φ = ω • pauliAct (ofVec (leftover c.n c.iter table 0 es)) ψ := by
  obtain ⟨ω, hω, hall⟩ := rounds_from h hb hind ht es 0
  refine ⟨ω, hω, fun ψ hψ hN φ => ?_⟩
  have := hall ψ hN (encoded_fix h hb hind hY hψ) 1 (by simp) φ
  rw [one_smul, mul_one] at this
  rwa [show pauliAct (ofVec (0 : BVec c.n)) ψ = ψ from pauliAct_one ψ] at this

/-- **C131, exactly**.  The rounds give back whatever is encoded, up to one factor, iff what is left is in the group the rows of the
normal form generate. -/
theorem C131_restored_iff (h : stabInit s c.n k none = .ok c) (hb : BinaryArr c.stab) (hind : Independent c.n c.stab)
    (hY : ∀ a < c.stab.rows, parityY (rowPauli c.n (c.stab.row a)) = 0)
    (table : List (ZMod 2) → List ℤ) (ht : TableFor c.n table) (es : List (List ℤ)) :
    (∃ z : ℂ, ∀ ψ, Encoded c c.n k ψ → Normalised ψ → ∀ φ, Rounds c table ψ es φ → φ = z • ψ) ↔
      leftover c.n c.iter table 0 es ∈ groupOf c.n c.iter := by
  obtain ⟨ω, hω, hR⟩ := C131_rounds h hb hind hY table ht es
  exact (restored_iff h hb hind hY hω hR).1

theorem signs_add (n : ℕ) (rows : List (List ℤ)) {u : BVec n} (hu : signs n rows u = signs n rows 0) (v : BVec n) :
    signs n rows (u + v) = signs n rows v := by
  unfold signs at *
  rw [List.map_inj_left] at hu ⊢
  intro g hg
  have h0 : sympV (rowPauli n g).vec (0 : BVec n) = 0 := by simp [sympV, dotp]
  rw [sympV_add_right, hu g hg, h0, zero_add]

theorem signs_group (h : stabInit s c.n k none = .ok c) (hb : BinaryArr c.stab) (hind : Independent c.n c.stab)
    {v : BVec c.n} (hv : v ∈ groupOf c.n c.iter) : signs c.n c.iter v = signs c.n c.iter 0 := by
  unfold signs
  rw [List.map_inj_left]
  intro g hg
  have h0 : sympV (rowPauli c.n g).vec (0 : BVec c.n) = 0 := by simp [sympV, dotp]
  rw [h0]
  obtain ⟨-, -, -, hcom, -⟩ := accepted_families h hb hind
  obtain ⟨a, ha, rfl⟩ := iter_mem.mp hg
  unfold groupOf at hv
  induction hv using Submodule.span_induction with
  | zero => exact h0
  | add x y _ _ hx hy => rw [sympV_add_right, hx, hy, add_zero]
  | smul z x _ hx =>
    rcases zmod2_cases z with rfl | rfl
    · rw [zero_smul]; exact h0
    · rwa [one_smul]
  | mem x hx =>
    obtain ⟨r, hr, rfl⟩ := hx
    obtain ⟨b, hb, rfl⟩ := iter_mem.mp hr
    rw [sympV_vec]
    exact hcom a ha b hb

theorem leftover_mem (h : stabInit s c.n k none = .ok c) (hb : BinaryArr c.stab) (hind : Independent c.n c.stab)
    {table : List (ZMod 2) → List ℤ} {es : List (List ℤ)}
    (he : ∀ e ∈ es, (rowPauli c.n e).vec + (rowPauli c.n (table (signs c.n c.iter (rowPauli c.n e).vec))).vec ∈ groupOf c.n c.iter)
    {v : BVec c.n} (hv : v ∈ groupOf c.n c.iter) : leftover c.n c.iter table v es ∈ groupOf c.n c.iter := by
  induction es generalizing v with
  | nil => exact hv
  | cons e es ih =>
    refine ih (fun e' he' => he e' (List.mem_cons_of_mem _ he')) ?_
    rw [signs_add _ _ (signs_group h hb hind hv), add_assoc]
    exact add_mem hv (he e (List.mem_cons_self ..))

/-- **C131, correctable errors**.  A table that undoes every error of a set undoes them in any number of rounds, one in each:
whatever is encoded, the rounds can be carried out, they leave the encoded state times one factor of modulus one, and decoding then
gives the logical state times the factor. -/
theorem C131_undone (h : stabInit s c.n k none = .ok c) (hb : BinaryArr c.stab) (hind : Independent c.n c.stab)
    (hY : ∀ a < c.stab.rows, parityY (rowPauli c.n (c.stab.row a)) = 0)
    (table : List (ZMod 2) → List ℤ) (ht : TableFor c.n table) (E : Set (List ℤ)) (hU : Undoes c k E table)
    (es : List (List ℤ)) (hes : ∀ e ∈ es, e ∈ E) :
    ∃ (enc : (Fin k → ZMod 2) → List Gate) (dec : List Gate) (ω : ℂ),
      (∀ δ, encodingCircuit c c.n (bitsList δ) = .ok (enc δ)) ∧ decodingCircuit c c.n true = .ok dec ∧ Complex.normSq ω = 1 ∧
      ∀ α : (Fin k → ZMod 2) → ℂ, Normalised α →
        (∃ φ, Rounds c table (∑ δ, α δ • run (enc δ) (ket 0)) es φ) ∧
        ∀ φ, Rounds c table (∑ δ, α δ • run (enc δ) (ket 0)) es φ →
          φ = ω • ∑ δ, α δ • run (enc δ) (ket 0) ∧
          run dec (tensor φ (ket 0)) = ω • tensor (run (enc 0) (ket 0)) (∑ δ, α δ • ket δ) := by
  obtain ⟨ω, hω, hR⟩ := C131_rounds h hb hind hY table ht es
  have hmem : leftover c.n c.iter table 0 es ∈ groupOf c.n c.iter :=
    leftover_mem h hb hind (fun e he => (C115_table h hb hind hY table ht E).mp hU e (hes e he)) (zero_mem _)
  obtain ⟨z, hz, hzR⟩ := (restored_iff h hb hind hY hω hR).2 hmem
  obtain ⟨enc, dec, d1, d2, -, d4⟩ := C15_decoding s c.n k c h hb hind c.n true (Or.inl ⟨rfl, rfl⟩)
  obtain ⟨enc', f1, -, f3⟩ := encoded_family h hb hind
  have henc : enc' = enc := by
    funext δ
    have h1 := f1 δ
    rw [d1] at h1
    exact (Except.ok.inj h1).symm
  subst henc
  refine ⟨enc', dec, z, d1, d2, hz, fun α hα => ?_⟩
  have hN : Normalised (∑ δ, α δ • (run (enc' δ) (ket 0) : Amp c.n)) := by
    show normSq _ = 1
    rw [encoded_norm f3]; exact hα
  have hall := hzR _ ⟨enc', d1, α, rfl⟩ hN
  refine ⟨⟨_, (hall _).mpr rfl⟩, fun φ hφ => ?_⟩
  have hφ' := (hall φ).mp hφ
  refine ⟨hφ', ?_⟩
  rw [hφ', tensor_smul_left, run_smul, d4]

theorem leftover_sum (n : ℕ) (rows : List (List ℤ)) (table : List (ZMod 2) → List ℤ)
    (hc : ∀ v : BVec n, signs n rows (rowPauli n (table (signs n rows v))).vec = signs n rows v) (es : List (List ℤ)) {v : BVec n}
    (hv : signs n rows v = signs n rows 0) :
    leftover n rows table v es =
      v + (es.map fun e => (rowPauli n e).vec + (rowPauli n (table (signs n rows (rowPauli n e).vec))).vec).sum := by
  induction es generalizing v with
  | nil => simp [leftover]
  | cons e es ih =>
    rw [leftover, signs_add _ _ hv, ih, List.map_cons, List.sum_cons]
    · abel
    · rw [add_assoc, signs_add _ _ hv]
      have h1 := hc (rowPauli n e).vec
      unfold signs at h1 ⊢
      rw [List.map_inj_left] at h1 ⊢
      intro g hg
      have h0 : sympV (rowPauli n g).vec (0 : BVec n) = 0 := by simp [sympV, dotp]
      have h2 : ∀ a : ZMod 2, a + a = 0 := fun a => by rw [← two_mul]; exact zero_mul _
      rw [sympV_add_right, h1 g hg, h0, h2]

/-- **C131, the rounds are independent**.  If for all results that can occur the table holds an operator that would give these
results, then the rounds give back whatever is encoded iff the product over the rounds of the error and the correction for this error
alone is in the group: a round in which the correction fails does not disturb the others, and several failures can cancel. -/
theorem C131_independent (h : stabInit s c.n k none = .ok c) (hb : BinaryArr c.stab) (hind : Independent c.n c.stab)
    (hY : ∀ a < c.stab.rows, parityY (rowPauli c.n (c.stab.row a)) = 0)
    (table : List (ZMod 2) → List ℤ) (ht : TableFor c.n table)
    (hc : ∀ v : BVec c.n, signs c.n c.iter (rowPauli c.n (table (signs c.n c.iter v))).vec = signs c.n c.iter v)
    (es : List (List ℤ)) :
    (∃ z : ℂ, ∀ ψ, Encoded c c.n k ψ → Normalised ψ → ∀ φ, Rounds c table ψ es φ → φ = z • ψ) ↔
      (es.map fun e => (rowPauli c.n e).vec + (rowPauli c.n (table (signs c.n c.iter (rowPauli c.n e).vec))).vec).sum ∈
        groupOf c.n c.iter := by
  rw [C131_restored_iff h hb hind hY table ht, leftover_sum _ _ _ hc _ rfl, zero_add]

/-- **C131, with a qubit of the register for the measurements**.  When one more qubit of the register serves for all measurements and
is never reset, the rounds leave the operator of `leftoverShared`: the results looked up are running sums. -/
theorem C131_shared (h : stabInit s c.n k none = .ok c) (hb : BinaryArr c.stab) (hind : Independent c.n c.stab)
    (hY : ∀ a < c.stab.rows, parityY (rowPauli c.n (c.stab.row a)) = 0)
    (table : ZMod 2 → List (ZMod 2) → List ℤ) (ht : ∀ a, TableFor c.n (table a)) (es : List (List ℤ)) (a : ZMod 2) :
    (∃ ω : ℂ, Complex.normSq ω = 1 ∧ ∀ ψ, Encoded c c.n k ψ → Normalised ψ → ∀ φ,
      SharedRounds c table ψ a es φ ↔ φ = ω • pauliAct (ofVec (leftoverShared c.n c.iter table 0 a es)) ψ) ∧
    ((∃ z : ℂ, ∀ ψ, Encoded c c.n k ψ → Normalised ψ → ∀ φ, SharedRounds c table ψ a es φ → φ = z • ψ) ↔
      leftoverShared c.n c.iter table 0 a es ∈ groupOf c.n c.iter) := by
  obtain ⟨ω, hω, hall⟩ := shared_from h hb hind ht es 0 a
  have hR : ∀ ψ, Encoded c c.n k ψ → Normalised ψ → ∀ φ,
      SharedRounds c table ψ a es φ ↔ φ = ω • pauliAct (ofVec (leftoverShared c.n c.iter table 0 a es)) ψ := by
    intro ψ hψ hN φ
    have := hall ψ hN (encoded_fix h hb hind hY hψ) 1 (by simp) φ
    rw [one_smul, mul_one] at this
    rwa [show pauliAct (ofVec (0 : BVec c.n)) ψ = ψ from pauliAct_one ψ] at this
  exact ⟨⟨ω, hω, hR⟩, (restored_iff h hb hind hY hω hR).1⟩

theorem leftoverShared_changes (n : ℕ) (rows : List (List ℤ)) (table : List (ZMod 2) → List ℤ) (es : List (List ℤ)) (v : BVec n)
    (a : ZMod 2) : leftoverShared n rows (fun a rs => table (changes a rs)) v a es = leftover n rows table v es := by
  induction es generalizing v a with
  | nil => rfl
  | cons e es ih =>
    rw [leftoverShared, leftover]
    simp only [changes_sums]
    exact ih _ _

/-- **C131, the repair**.  Looking up the changes from each result to the next makes the rounds with a qubit of the register do what
those with fresh qubits do: they give back what is encoded for the same lists of errors. -/
theorem C131_changes (h : stabInit s c.n k none = .ok c) (hb : BinaryArr c.stab) (hind : Independent c.n c.stab)
    (hY : ∀ a < c.stab.rows, parityY (rowPauli c.n (c.stab.row a)) = 0)
    (table : List (ZMod 2) → List ℤ) (ht : TableFor c.n table) (es : List (List ℤ)) (a : ZMod 2) :
    (∃ z : ℂ, ∀ ψ, Encoded c c.n k ψ → Normalised ψ → ∀ φ,
        SharedRounds c (fun a rs => table (changes a rs)) ψ a es φ → φ = z • ψ) ↔
      ∃ z : ℂ, ∀ ψ, Encoded c c.n k ψ → Normalised ψ → ∀ φ, Rounds c table ψ es φ → φ = z • ψ := by
  rw [(C131_shared h hb hind hY (fun a rs => table (changes a rs)) (fun _ _ => ht _) es a).2,
    C131_restored_iff h hb hind hY table ht, leftoverShared_changes]

end

/-- The rows of the `[[4,2]]` code. -/
theorem iter422 {c : StabCode} (h1 : c.normalForm.rows = 2) (h2 : c.normalForm.row 0 = [1, 1, 1, 1, 0, 0, 0, 0])
    (h3 : c.normalForm.row 1 = [0, 0, 0, 0, 1, 1, 1, 1]) : c.iter = [[1, 1, 1, 1, 0, 0, 0, 0], [0, 0, 0, 0, 1, 1, 1, 1]] := by
  unfold StabCode.iter
  rw [h1]
  simp [List.range_succ, h2, h3]

/-- The corrections for errors on the first qubit of the `[[4,2]]` code: Z, X and Y for the results they give. -/
def firstTable (rs : List (ZMod 2)) : List ℤ :=
  if rs = [1, 0] then [0, 0, 0, 0, 1, 0, 0, 0] else if rs = [0, 1] then [1, 0, 0, 0, 0, 0, 0, 0]
  else if rs = [1, 1] then [1, 0, 0, 0, 1, 0, 0, 0] else [0, 0, 0, 0, 0, 0, 0, 0]

/-- The errors on the first of four qubits. -/
def firstErrors : Set (List ℤ) := {e | e ∈ [[0, 0, 0, 0, 0, 0, 0, 0], [0, 0, 0, 0, 1, 0, 0, 0], [1, 0, 0, 0, 0, 0, 0, 0], [1, 0, 0, 0, 1, 0, 0, 0]]}

theorem firstTable_for : TableFor 4 firstTable := by
  intro rs
  unfold firstTable
  split_ifs <;> exact ⟨rfl, by unfold IsBinary; decide⟩

/-- **C131, refuted for a qubit of the register**.  With the results as they are returned, the table which in any number of rounds
undoes any error on the first qubit of the `[[4,2]]` code does not undo a single Z when the measurements share a qubit of the
register that starts at zero. -/
theorem C131_shared_refuted : ∃ c, stabInit (.rows [[1, 1, 1, 1, 0, 0, 0, 0], [0, 0, 0, 0, 1, 1, 1, 1]]) c.n 2 none = .ok c ∧
    c.n = 4 ∧ TableFor c.n firstTable ∧ Undoes c 2 firstErrors firstTable ∧ [0, 0, 0, 0, 1, 0, 0, 0] ∈ firstErrors ∧
    (∀ es, (∀ e ∈ es, e ∈ firstErrors) → ∃ z : ℂ, ∀ ψ, Encoded c c.n 2 ψ → Normalised ψ → ∀ φ, Rounds c firstTable ψ es φ → φ = z • ψ) ∧
    ¬ ∃ z : ℂ, ∀ ψ, Encoded c c.n 2 ψ → Normalised ψ → ∀ φ,
      SharedRounds c (fun _ => firstTable) ψ 0 [[0, 0, 0, 0, 1, 0, 0, 0]] φ → φ = z • ψ := by
  obtain ⟨c, h, hb, hind, -, hr, hs0, hs1, hn0, hn1, hn2⟩ := code422
  obtain ⟨hn, -⟩ := accepted_facts h hb hind
  have hit := iter422 hn0 hn1 hn2
  rw [← hn] at h hind
  have hY : ∀ a < c.stab.rows, parityY (rowPauli c.n (c.stab.row a)) = 0 := by
    rw [hr, hn]
    intro a ha
    have : a = 0 ∨ a = 1 := by omega
    rcases this with rfl | rfl
    · rw [hs0]; decide
    · rw [hs1]; decide
  have ht : TableFor c.n firstTable := by rw [hn]; exact firstTable_for
  have hU : Undoes c 2 firstErrors firstTable := by
    rw [C115_table h hb hind hY firstTable ht]
    intro e he
    have : (rowPauli c.n e).vec + (rowPauli c.n (firstTable (c.iter.map fun g => symp (rowPauli c.n g) (rowPauli c.n e)))).vec = 0 := by
      rw [hit, hn]
      simp only [firstErrors, Set.mem_ofPred_eq, List.mem_cons, List.not_mem_nil, or_false] at he
      rcases he with rfl | rfl | rfl | rfl <;> decide
    rw [this]; exact zero_mem _
  refine ⟨c, h, hn, ht, hU, by simp [firstErrors], fun es hes => ?_, ?_⟩
  · rw [C131_restored_iff h hb hind hY firstTable ht]
    exact leftover_mem h hb hind (fun e he => (C115_table h hb hind hY firstTable ht firstErrors).mp hU e (hes e he)) (zero_mem _)
  · rw [(C131_shared h hb hind hY (fun _ => firstTable) (fun _ => ht) _ 0).2]
    intro hm
    have := signs_group h hb hind hm
    rw [hit, hn] at this
    revert this
    decide

/-- **C131**, an instance of `C131_independent`: with the same code and table, X on the second qubit is taken for X on the first, and
one round does not give back what is encoded; two such rounds do. -/
theorem C131_cancel : ∃ c, stabInit (.rows [[1, 1, 1, 1, 0, 0, 0, 0], [0, 0, 0, 0, 1, 1, 1, 1]]) c.n 2 none = .ok c ∧ c.n = 4 ∧
    (∀ v : BVec c.n, signs c.n c.iter (rowPauli c.n (firstTable (signs c.n c.iter v))).vec = signs c.n c.iter v) ∧
    (¬ ∃ z : ℂ, ∀ ψ, Encoded c c.n 2 ψ → Normalised ψ → ∀ φ,
      Rounds c firstTable ψ [[0, 1, 0, 0, 0, 0, 0, 0]] φ → φ = z • ψ) ∧
    ∃ z : ℂ, ∀ ψ, Encoded c c.n 2 ψ → Normalised ψ → ∀ φ,
      Rounds c firstTable ψ [[0, 1, 0, 0, 0, 0, 0, 0], [0, 1, 0, 0, 0, 0, 0, 0]] φ → φ = z • ψ := by
  obtain ⟨c, h, hb, hind, -, hr, hs0, hs1, hn0, hn1, hn2⟩ := code422
  obtain ⟨hn, -⟩ := accepted_facts h hb hind
  have hit := iter422 hn0 hn1 hn2
  rw [← hn] at h hind
  have hY : ∀ a < c.stab.rows, parityY (rowPauli c.n (c.stab.row a)) = 0 := by
    rw [hr, hn]
    intro a ha
    have : a = 0 ∨ a = 1 := by omega
    rcases this with rfl | rfl
    · rw [hs0]; decide
    · rw [hs1]; decide
  have ht : TableFor c.n firstTable := by rw [hn]; exact firstTable_for
  have hc : ∀ v : BVec c.n, signs c.n c.iter (rowPauli c.n (firstTable (signs c.n c.iter v))).vec = signs c.n c.iter v := by
    rw [hit, hn]
    intro v
    have hs : signs 4 [[1, 1, 1, 1, 0, 0, 0, 0], [0, 0, 0, 0, 1, 1, 1, 1]] v =
        [sympV (rowPauli 4 [1, 1, 1, 1, 0, 0, 0, 0]).vec v, sympV (rowPauli 4 [0, 0, 0, 0, 1, 1, 1, 1]).vec v] := rfl
    rw [hs]
    rcases zmod2_cases (sympV (rowPauli 4 [1, 1, 1, 1, 0, 0, 0, 0]).vec v) with e | e <;>
      rcases zmod2_cases (sympV (rowPauli 4 [0, 0, 0, 0, 1, 1, 1, 1]).vec v) with e' | e' <;> rw [e, e'] <;> decide
  refine ⟨c, h, hn, hc, ?_, ?_⟩
  · rw [C131_independent h hb hind hY firstTable ht hc]
    intro hm
    -- the rows agree on the first two qubits, X on the first and on the second does not commute with Z on the first and third
    have hz : ∀ v ∈ groupOf c.n c.iter, sympV (rowPauli c.n [0, 0, 0, 0, 1, 0, 1, 0]).vec v = 0 := by
      intro v hv
      unfold groupOf at hv
      induction hv using Submodule.span_induction with
      | zero => simp [sympV, dotp]
      | add x y _ _ hx hy => rw [sympV_add_right, hx, hy, add_zero]
      | smul z x _ hx =>
        rcases zmod2_cases z with rfl | rfl
        · rw [zero_smul]; simp [sympV, dotp]
        · rwa [one_smul]
      | mem x hx =>
        obtain ⟨r, hr, rfl⟩ := hx
        rw [hit] at hr
        simp only [List.mem_cons, List.not_mem_nil, or_false] at hr
        rw [hn]
        rcases hr with rfl | rfl <;> decide
    have := hz _ hm
    rw [hit, hn] at this
    revert this
    decide
  · rw [C131_independent h hb hind hY firstTable ht hc]
    have : (([[0, 1, 0, 0, 0, 0, 0, 0], [0, 1, 0, 0, 0, 0, 0, 0]] : List (List ℤ)).map fun e => (rowPauli c.n e).vec +
        (rowPauli c.n (firstTable (signs c.n c.iter (rowPauli c.n e).vec))).vec).sum = 0 := by
      rw [hit, hn]; decide
    rw [this]; exact zero_mem _

/-- Any number of rounds, in each an arbitrary Pauli error on one qubit, with the five-qubit code. -/
theorem C131_five_qubits : ∃ c, stabInit (.rows fiveRows) c.n 1 none = .ok c ∧ c.n = 5 ∧ ∃ table, TableFor c.n table ∧
    ∀ es : List (List ℤ), (∀ e ∈ es, e.length = 2 * c.n ∧ IsBinary e ∧ weight (rowPauli c.n e) ≤ 1) →
      ∃ z : ℂ, Complex.normSq z = 1 ∧ ∀ ψ, Encoded c c.n 1 ψ → Normalised ψ → ∀ φ, Rounds c table ψ es φ ↔ φ = z • ψ := by
  obtain ⟨c, h1, h2, h3, h4, h5⟩ := five_code
  have hn : c.n = 5 := (accepted_facts h1 h2 h3).1
  rw [← hn] at h1 h3 h4
  obtain ⟨table, ht, hU⟩ := C73_distance (.rows fiveRows) 1 c h1 h2 h3 h4 1 (by rw [hn]; exact five_distance h5)
  refine ⟨c, h1, hn, table, ht, fun es hes => ?_⟩
  obtain ⟨ω, hω, hR⟩ := C131_rounds h1 h2 h3 h4 table ht es
  exact (restored_iff h1 h2 h3 h4 hω hR).2
    (leftover_mem h1 h2 h3 (fun e he => (C115_table h1 h2 h3 h4 table ht _).mp hU e (hes e he)) (zero_mem _))

end PyQ
