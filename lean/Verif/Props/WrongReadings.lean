import Verif.Props.Rounds
import Verif.Props.Correctable
import Verif.Spec.WrongReadings

/-! # C145: error correction with wrongly reported results -/

namespace PyQ

open Spec Module

theorem leftoverFaulty_nil (n : ℕ) (rows : List (List ℤ)) (table : List (ZMod 2) → List ℤ) (v : BVec n) :
    leftoverFaulty n rows table v [] = v := by
  simp [leftoverFaulty, applied]

theorem leftoverFaulty_cons (n : ℕ) (rows : List (List ℤ)) (table : List (ZMod 2) → List ℤ) (v : BVec n) (e : List ℤ)
    (f : List (ZMod 2)) (es : List (List ℤ × List (ZMod 2))) :
    leftoverFaulty n rows table v ((e, f) :: es) = leftoverFaulty n rows table (v + (rowPauli n e).vec +
      (rowPauli n (table (List.zipWith (· + ·) (signs n rows (v + (rowPauli n e).vec)) f))).vec) es := by
  unfold leftoverFaulty
  simp only [applied, List.map_cons, List.sum_cons]
  abel

theorem leftoverFaulty_append (n : ℕ) (rows : List (List ℤ)) (table : List (ZMod 2) → List ℤ)
    (es es' : List (List ℤ × List (ZMod 2))) (v : BVec n) :
    leftoverFaulty n rows table v (es ++ es') = leftoverFaulty n rows table (leftoverFaulty n rows table v es) es' := by
  induction es generalizing v with
  | nil => rw [leftoverFaulty_nil, List.nil_append]
  | cons x es ih =>
    obtain ⟨e, f⟩ := x
    rw [List.cons_append, leftoverFaulty_cons, ih, leftoverFaulty_cons]

section
variable {s : StabInput} {k : ℕ} {c : StabCode}

theorem faulty_from (h : stabInit s c.n k none = .ok c) (hb : BinaryArr c.stab) (hind : Independent c.n c.stab)
    {table : List (ZMod 2) → List ℤ} (ht : TableFor c.n table) (es : List (List ℤ × List (ZMod 2))) (v : BVec c.n) :
    ∃ ω : ℂ, Complex.normSq ω = 1 ∧ ∀ ψ : Amp c.n, Normalised ψ → (∀ g ∈ c.iter, pauliAct (rowPauli c.n g) ψ = ψ) →
      ∀ z : ℂ, Complex.normSq z = 1 → ∀ φ, FaultyRounds c table (z • pauliAct (ofVec v) ψ) es φ ↔
        φ = (ω * z) • pauliAct (ofVec (leftoverFaulty c.n c.iter table v es)) ψ := by
  induction es generalizing v with
  | nil =>
    refine ⟨1, by simp, fun ψ _ _ z _ φ => ⟨fun hr => ?_, ?_⟩⟩
    · cases hr; rw [one_mul, leftoverFaulty_nil]
    · rintro rfl; rw [one_mul, leftoverFaulty_nil]; exact FaultyRounds.nil _
  | cons x es ih =>
    obtain ⟨e, f⟩ := x
    set p := (rowPauli c.n e).vec with hp
    set r := table (List.zipWith (· + ·) (signs c.n c.iter (v + p)) f) with hr
    obtain ⟨ω, hω, hall⟩ := ih (v + p + (rowPauli c.n r).vec)
    obtain ⟨corr, str, c1, -, -, c4⟩ := C48_apply_stabilizer c.n r (ht _).1 (ht _).2
    set σ : ℂ := sgn (dotp p.2 v.1) with hσ
    set τ : ℂ := Complex.I ^ (str.count 'Y') * sgn (dotp (rowPauli c.n r).vec.2 (v + p).1) with hτ
    have hτn : Complex.normSq τ = 1 := by rw [hτ, map_mul, normSq_sgn, map_pow, Complex.normSq_I, one_pow, one_mul]
    have hσn : Complex.normSq σ = 1 := normSq_sgn _
    refine ⟨ω * (τ * σ), by rw [map_mul, map_mul, hω, hτn, hσn]; norm_num, fun ψ hψ hfix z hz φ => ?_⟩
    rw [leftoverFaulty_cons]
    have hzσ : Complex.normSq (z * σ) = 1 := by rw [map_mul, hz, hσn, one_mul]
    have herr : pauliAct (rowPauli c.n e) (z • pauliAct (ofVec v) ψ) = (z * σ) • pauliAct (ofVec (v + p)) ψ := by
      rw [pauliAct_smul, ← smul_smul]
      congr 1
      exact pauliAct_ofVec_add p v ψ
    have key := C17_fresh_history c ((z * σ) • pauliAct (ofVec (v + p)) ψ) (normalised_smul' hzσ (normalised_pauli _ hψ))
      (fun st => symp (st.pauli c.n) (ofVec (v + p))) _ (round_valid h hb hind hfix (z * σ) (v + p))
    rw [signs_map] at key
    have hcorr : run corr ((z * σ) • pauliAct (ofVec (v + p)) ψ) =
        (τ * (z * σ)) • pauliAct (ofVec (v + p + (rowPauli c.n r).vec)) ψ := by
      rw [run_smul, c4]
      have := pauliAct_ofVec_add (rowPauli c.n r).vec (v + p) ψ
      rw [show pauliAct (rowPauli c.n r) (pauliAct (ofVec (v + p)) ψ) = _ from this, smul_smul, smul_smul, hτ]
      congr 1; ring
    have hτz : Complex.normSq (τ * (z * σ)) = 1 := by rw [map_mul, hτn, hzσ, one_mul]
    have hnext := hall ψ hψ hfix (τ * (z * σ)) hτz φ
    have hfin : ω * (τ * (z * σ)) = ω * (τ * σ) * z := by ring
    rw [hfin] at hnext
    constructor
    · intro hR
      cases hR with
      | cons hh hc hrest =>
        rw [herr] at hh
        obtain ⟨rfl, rfl⟩ := key.1 _ _ hh
        rw [← hr, c1] at hc
        cases hc
        rw [hcorr] at hrest
        exact hnext.mp hrest
    · intro hφ
      refine FaultyRounds.cons (φ' := (z * σ) • pauliAct (ofVec (v + p)) ψ) (rs := signs c.n c.iter (v + p)) (corr := corr) ?_
        (by rw [← hr]; exact c1) ?_
      · rw [herr]; exact key.2
      · rw [hcorr]; exact hnext.mpr hφ

/-- **C145**.  Any number of rounds of error correction, with any errors, any table of corrections, and results reported wrongly
in any way.  Whatever is encoded, the rounds can be carried out, and they leave the state with the product of all errors and of
all rows applied on it, up to one factor of modulus one. -/
theorem C145_rounds (h : stabInit s c.n k none = .ok c) (hb : BinaryArr c.stab) (hind : Independent c.n c.stab)
    (hY : ∀ a < c.stab.rows, parityY (rowPauli c.n (c.stab.row a)) = 0)
    (table : List (ZMod 2) → List ℤ) (ht : TableFor c.n table) (es : List (List ℤ × List (ZMod 2))) :
    (∃ ω : ℂ, Complex.normSq ω = 1 ∧ ∀ ψ, Encoded c c.n k ψ → Normalised ψ → ∀ φ,
      FaultyRounds c table ψ es φ ↔ φ = ω • pauliAct (ofVec (leftoverFaulty c.n c.iter table 0 es)) ψ) ∧
    ((∃ z : ℂ, ∀ ψ, Encoded c c.n k ψ → Normalised ψ → ∀ φ, FaultyRounds c table ψ es φ → φ = z • ψ) ↔
      leftoverFaulty c.n c.iter table 0 es ∈ groupOf c.n c.iter) := by
  obtain ⟨ω, hω, hall⟩ := faulty_from h hb hind ht es 0
  have hR : ∀ ψ, Encoded c c.n k ψ → Normalised ψ → ∀ φ,
      FaultyRounds c table ψ es φ ↔ φ = ω • pauliAct (ofVec (leftoverFaulty c.n c.iter table 0 es)) ψ := by
    intro ψ hψ hN φ
    have := hall ψ hN (encoded_fix h hb hind hY hψ) 1 (by simp) φ
    rw [one_smul, mul_one] at this
    rwa [show pauliAct (ofVec (0 : BVec c.n)) ψ = ψ from pauliAct_one ψ] at this
  exact ⟨⟨ω, hω, hR⟩, (restored_iff h hb hind hY hω hR).1⟩

theorem signs_add_zip (n : ℕ) (rows : List (List ℤ)) (u v : BVec n) :
    signs n rows (u + v) = List.zipWith (· + ·) (signs n rows u) (signs n rows v) := by
  unfold signs
  induction rows with
  | nil => rfl
  | cons g rows ih => rw [List.map_cons, List.map_cons, List.map_cons, List.zipWith_cons_cons, ih, sympV_add_right]

theorem zip_cancel (l f : List (ZMod 2)) (hl : l.length = f.length) :
    List.zipWith (· + ·) l (List.zipWith (· + ·) l f) = f := by
  induction l generalizing f with
  | nil =>
    cases f with
    | nil => rfl
    | cons _ _ => cases hl
  | cons a l ih =>
    cases f with
    | nil => cases hl
    | cons b f =>
      simp only [List.zipWith_cons_cons]
      rw [ih f (by simpa using hl), ← add_assoc, add_self_z, zero_add]

/-- **C145, wrong readings do not accumulate**.  If every row of the table has the signs it is looked up with, then after any
rounds the signs of what is left on the register are exactly the flips of the last round, whatever happened before. -/
theorem C145_last_flips (c : StabCode) (table : List (ZMod 2) → List ℤ)
    (hc : ∀ rs, rs.length = c.iter.length → signs c.n c.iter (rowPauli c.n (table rs)).vec = rs)
    (es : List (List ℤ × List (ZMod 2))) (e : List ℤ) (f : List (ZMod 2)) (hf : f.length = c.iter.length) :
    signs c.n c.iter (leftoverFaulty c.n c.iter table 0 (es ++ [(e, f)])) = f := by
  rw [leftoverFaulty_append, leftoverFaulty_cons, leftoverFaulty_nil, signs_add_zip]
  have hl : ∀ v : BVec c.n, (signs c.n c.iter v).length = f.length := fun v => by rw [hf]; simp [signs]
  rw [hc _ (by rw [List.length_zipWith, hl, hf, min_self]), zip_cancel _ _ (hl _)]

theorem weight_leftover (n : ℕ) (rows : List (List ℤ)) (table : List (ZMod 2) → List ℤ) (es : List (List ℤ × List (ZMod 2)))
    (v : BVec n) : weight (ofVec (leftoverFaulty n rows table v es)) ≤ weight (ofVec v) +
      (es.map fun x => weight (rowPauli n x.1)).sum + ((applied n rows table v es).map fun r => weight (rowPauli n r)).sum := by
  induction es generalizing v with
  | nil => rw [leftoverFaulty_nil]; simp [applied]
  | cons x es ih =>
    obtain ⟨e, f⟩ := x
    rw [leftoverFaulty_cons]
    refine (ih _).trans ?_
    set r := table (List.zipWith (· + ·) (signs n rows (v + (rowPauli n e).vec)) f) with hr
    have h1 : weight (ofVec (v + (rowPauli n e).vec + (rowPauli n r).vec)) ≤
        weight (ofVec (v + (rowPauli n e).vec)) + weight (rowPauli n r) := weight_add _ _ _ rfl
    have h2 : weight (ofVec (v + (rowPauli n e).vec)) ≤ weight (ofVec v) + weight (rowPauli n e) := weight_add _ _ _ rfl
    have h3 : applied n rows table v ((e, f) :: es) = r :: applied n rows table (v + (rowPauli n e).vec + (rowPauli n r).vec) es := rfl
    rw [h3]
    simp only [List.map_cons, List.sum_cons]
    omega

/-- **C145, distance**.  A code of distance at least `d` and a table of which every row has the signs it is looked up with.  If
the results of the last round are reported rightly, and all errors and all rows applied together touch fewer than `d`
qubits, counted with repetition, whatever was encoded is back, however wrong the reports of the other rounds were. -/
theorem C145_distance (h : stabInit s c.n k none = .ok c) (hb : BinaryArr c.stab) (hind : Independent c.n c.stab)
    (hY : ∀ a < c.stab.rows, parityY (rowPauli c.n (c.stab.row a)) = 0)
    (table : List (ZMod 2) → List ℤ) (ht : TableFor c.n table)
    (hc : ∀ rs, rs.length = c.iter.length → signs c.n c.iter (rowPauli c.n (table rs)).vec = rs)
    (d : ℕ) (hd : DistanceAtLeast c.n c.iter d) (es : List (List ℤ × List (ZMod 2))) (e : List ℤ)
    (hw : ((es ++ [(e, List.replicate c.iter.length 0)]).map fun x : List ℤ × List (ZMod 2) => weight (rowPauli c.n x.1)).sum +
      ((applied c.n c.iter table 0 (es ++ [(e, List.replicate c.iter.length 0)])).map fun r => weight (rowPauli c.n r)).sum < d) :
    ∃ z : ℂ, Complex.normSq z = 1 ∧ ∀ ψ, Encoded c c.n k ψ → Normalised ψ → ∀ φ,
      FaultyRounds c table ψ (es ++ [(e, List.replicate c.iter.length 0)]) φ ↔ φ = z • ψ := by
  set es' := es ++ [(e, List.replicate c.iter.length 0)] with hes
  obtain ⟨⟨ω, hω, hR⟩, -⟩ := C145_rounds h hb hind hY table ht es'
  refine (restored_iff h hb hind hY hω hR).2 ?_
  by_contra hno
  have hs := C145_last_flips c table hc es e (List.replicate c.iter.length 0) (by simp)
  rw [← hes] at hs
  have h1 := hd (ofVec (leftoverFaulty c.n c.iter table 0 es')) (fun g hg => ?_) hno
  · have h2 := weight_leftover c.n c.iter table es' 0
    have h0 : weight (ofVec (0 : BVec c.n)) = 0 := by simp [weight, ofVec]
    omega
  · obtain ⟨i, hi, rfl⟩ := List.getElem_of_mem hg
    have e1 := congrArg (fun l => l.getD i 1) hs
    simp only [signs] at e1
    rw [List.getD_eq_getElem _ _ (by simpa using hi), List.getD_eq_getElem _ _ (by simpa using hi), List.getElem_map,
      List.getElem_replicate] at e1
    exact e1

theorem flatten_getD (l : List (ZMod 2)) (m : ℕ) {i j : ℕ} (hi : i < l.length) (hj : j < m) :
    (List.replicate m l).flatten.getD (j * l.length + i) 0 = l.getD i 0 := by
  induction m generalizing j with
  | zero => omega
  | succ m ih =>
    rw [List.replicate_succ, List.flatten_cons]
    cases j with
    | zero => rw [Nat.zero_mul, Nat.zero_add, List.getD_append _ _ _ _ hi]
    | succ j =>
      rw [List.getD_append_right _ _ _ _ (by rw [Nat.succ_mul]; omega), show (j + 1) * l.length + i - l.length = j * l.length + i by
        rw [Nat.succ_mul]; omega]
      exact ih (by omega)

/-- **C145, repeating the measurements**.  Measure all rows of the normal form `m` times in turn after a Pauli error.  All turns
give the signs of the error and leave the state alone; and if for every row fewer than half of the reported values are wrong,
the more frequent values are the signs of the error. -/
theorem C145_majority (h : stabInit s c.n k none = .ok c) (hb : BinaryArr c.stab) (hind : Independent c.n c.stab)
    (hY : ∀ a < c.stab.rows, parityY (rowPauli c.n (c.stab.row a)) = 0) (ψ : Amp c.n) (hψ : Encoded c c.n k ψ) (hN : Normalised ψ)
    (E : Pauli c.n) (m : ℕ) (rs : List (ZMod 2)) (φ : Amp c.n)
    (hh : History (FreshStep c) (pauliAct E ψ) (List.replicate m (c.iter.map StabArg.bin)).flatten rs φ) :
    φ = pauliAct E ψ ∧ rs = (List.replicate m (signs c.n c.iter E.vec)).flatten ∧
    ∀ reported : List (ZMod 2), (∀ i < c.iter.length, 2 * ((List.range m).filter fun j =>
        reported.getD (j * c.iter.length + i) 0 ≠ rs.getD (j * c.iter.length + i) 0).length < m) →
      majority m c.iter.length reported = signs c.n c.iter E.vec := by
  have hv := round_valid h hb hind (encoded_fix h hb hind hY hψ) 1 E.vec
  rw [one_smul] at hv
  have key := (C17_fresh_history c (pauliAct E ψ) (normalised_pauli _ hN) (fun st => symp (st.pauli c.n) E)
    (List.replicate m (c.iter.map StabArg.bin)).flatten (by
      intro st hst
      obtain ⟨l, hl, hst⟩ := List.mem_flatten.mp hst
      rw [List.eq_of_mem_replicate hl] at hst
      exact hv st hst)).1 rs φ hh
  have e : (List.replicate m (c.iter.map StabArg.bin)).flatten.map (fun st => symp (st.pauli c.n) E) =
      (List.replicate m (signs c.n c.iter E.vec)).flatten := by
    rw [List.map_flatten, List.map_replicate]
    congr 2
    exact signs_map E.vec
  rw [e] at key
  obtain ⟨k1, k2⟩ := key
  refine ⟨k2, k1, fun reported hrep => ?_⟩
  have hlen : (signs c.n c.iter E.vec).length = c.iter.length := by simp [signs]
  refine List.ext_getElem (by rw [hlen]; simp [majority]) fun i h1 h2 => ?_
  have hi : i < c.iter.length := by rw [← hlen]; exact h2
  have hr := hrep i hi
  have hf : ((List.range m).filter fun j => reported.getD (j * c.iter.length + i) 0 ≠ rs.getD (j * c.iter.length + i) 0) =
      (List.range m).filter fun j => reported.getD (j * c.iter.length + i) 0 ≠ (signs c.n c.iter E.vec)[i] := by
    refine List.filter_congr fun j hj => ?_
    have := flatten_getD (signs c.n c.iter E.vec) m h2 (List.mem_range.mp hj)
    rw [← k1, hlen, List.getD_eq_getElem _ _ h2] at this
    rw [this]
  rw [hf] at hr
  simp only [majority, List.getElem_map, List.getElem_range]
  have hcount : ∀ (p : ℕ → Bool), ((List.range m).filter p).length + ((List.range m).filter fun j => !p j).length = m := by
    intro p
    have := List.length_eq_length_filter_add (l := List.range m) p
    rw [List.length_range] at this
    exact this.symm
  rcases zmod2_cases (signs c.n c.iter E.vec)[i] with h0 | h0 <;> rw [h0] at hr ⊢
  · have e2 : ((List.range m).filter fun j => reported.getD (j * c.iter.length + i) 0 = 1) =
        (List.range m).filter fun j => reported.getD (j * c.iter.length + i) 0 ≠ 0 := by
      refine List.filter_congr fun j _ => ?_
      rcases zmod2_cases (reported.getD (j * c.iter.length + i) 0) with h3 | h3 <;> rw [h3] <;> decide
    rw [e2, if_neg (by omega)]
  · have e2 := hcount fun j => decide (reported.getD (j * c.iter.length + i) 0 = 1)
    have e3 : ((List.range m).filter fun j => !decide (reported.getD (j * c.iter.length + i) 0 = 1)) =
        (List.range m).filter fun j => reported.getD (j * c.iter.length + i) 0 ≠ 1 := by
      refine List.filter_congr fun j _ => ?_
      simp
    rw [e3] at e2
    rw [if_pos (by omega)]

end

/-- The rows of the Paulis on at most one of five qubits. -/
def fiveSingles : List (List ℤ) :=
  [[0, 0, 0, 0, 0, 0, 0, 0, 0, 0], [1, 0, 0, 0, 0, 0, 0, 0, 0, 0], [0, 0, 0, 0, 0, 1, 0, 0, 0, 0], [1, 0, 0, 0, 0, 1, 0, 0, 0, 0],
   [0, 1, 0, 0, 0, 0, 0, 0, 0, 0], [0, 0, 0, 0, 0, 0, 1, 0, 0, 0], [0, 1, 0, 0, 0, 0, 1, 0, 0, 0], [0, 0, 1, 0, 0, 0, 0, 0, 0, 0],
   [0, 0, 0, 0, 0, 0, 0, 1, 0, 0], [0, 0, 1, 0, 0, 0, 0, 1, 0, 0], [0, 0, 0, 1, 0, 0, 0, 0, 0, 0], [0, 0, 0, 0, 0, 0, 0, 0, 1, 0],
   [0, 0, 0, 1, 0, 0, 0, 0, 1, 0], [0, 0, 0, 0, 1, 0, 0, 0, 0, 0], [0, 0, 0, 0, 0, 0, 0, 0, 0, 1], [0, 0, 0, 0, 1, 0, 0, 0, 0, 1]]

/-- The rows of the normal form of the five-qubit code. -/
def fiveIter : List (List ℤ) :=
  [[1, 0, 0, 0, 1, 1, 1, 0, 1, 1], [0, 1, 0, 0, 1, 0, 0, 1, 1, 0], [0, 0, 1, 0, 1, 1, 1, 0, 0, 0], [0, 0, 0, 1, 1, 1, 0, 1, 1, 1]]

/-- The table for the five-qubit code: the Pauli on at most one qubit with these results. -/
def fiveTable (rs : List (ZMod 2)) : List ℤ :=
  (fiveSingles.find? fun r => signs 5 fiveIter (rowPauli 5 r).vec = rs).getD [0, 0, 0, 0, 0, 0, 0, 0, 0, 0]

theorem fiveTable_mem (rs : List (ZMod 2)) : fiveTable rs ∈ fiveSingles := by
  unfold fiveTable
  cases hf : fiveSingles.find? fun r => signs 5 fiveIter (rowPauli 5 r).vec = rs with
  | none => simp [fiveSingles]
  | some r => exact List.mem_of_find?_eq_some hf

theorem fiveTable_for : TableFor 5 fiveTable := by
  have : ∀ r ∈ fiveSingles, r.length = 2 * 5 ∧ IsBinary r := by unfold IsBinary; decide
  exact fun rs => this _ (fiveTable_mem rs)

theorem fiveTable_weight (rs : List (ZMod 2)) : weight (rowPauli 5 (fiveTable rs)) ≤ 1 := by
  have : ∀ r ∈ fiveSingles, weight (rowPauli 5 r) ≤ 1 := by decide +kernel
  exact this _ (fiveTable_mem rs)

theorem fiveTable_signs (rs : List (ZMod 2)) (hl : rs.length = fiveIter.length) :
    signs 5 fiveIter (rowPauli 5 (fiveTable rs)).vec = rs := by
  have hall : ∀ a b c d : ZMod 2, signs 5 fiveIter (rowPauli 5 (fiveTable [a, b, c, d])).vec = [a, b, c, d] := by decide +kernel
  match rs, hl with
  | [a, b, c, d], _ => exact hall a b c d

/-- **C145**, an instance and a limit: with the five-qubit code, any wrong report in a round without an error is repaired by a
round with a right one; but an error together with one wrong bit in the report of the same round is not. -/
theorem C145_five_qubits : ∃ c, stabInit (.rows fiveRows) c.n 1 none = .ok c ∧ c.n = 5 ∧ TableFor c.n fiveTable ∧
    (∀ f : List (ZMod 2), ∃ z : ℂ, Complex.normSq z = 1 ∧ ∀ ψ, Encoded c c.n 1 ψ → Normalised ψ → ∀ φ,
      FaultyRounds c fiveTable ψ [([0, 0, 0, 0, 0, 0, 0, 0, 0, 0], f), ([0, 0, 0, 0, 0, 0, 0, 0, 0, 0], [0, 0, 0, 0])] φ ↔
        φ = z • ψ) ∧
    ¬ ∃ z : ℂ, ∀ ψ, Encoded c c.n 1 ψ → Normalised ψ → ∀ φ, FaultyRounds c fiveTable ψ
      [([1, 0, 0, 0, 0, 0, 0, 0, 0, 0], [0, 1, 0, 0]), ([0, 0, 0, 0, 0, 0, 0, 0, 0, 0], [0, 0, 0, 0])] φ → φ = z • ψ := by
  obtain ⟨c, h1, h2, h3, h4, h5⟩ := five_code
  have hn : c.n = 5 := (accepted_facts h1 h2 h3).1
  rw [← hn] at h1 h3 h4
  have ht : TableFor c.n fiveTable := by rw [hn]; exact fiveTable_for
  have hit : c.iter = fiveIter := h5
  have hc : ∀ rs, rs.length = c.iter.length → signs c.n c.iter (rowPauli c.n (fiveTable rs)).vec = rs := by
    rw [hit, hn]; exact fiveTable_signs
  have hd : DistanceAtLeast c.n c.iter 3 := by
    rw [hn]
    intro p hp hno
    by_contra hlt
    exact hno (five_distance h5 p (by omega) hp)
  have hl4 : List.replicate c.iter.length (0 : ZMod 2) = [0, 0, 0, 0] := by rw [hit]; rfl
  refine ⟨c, h1, hn, ht, fun f => ?_, ?_⟩
  · have := C145_distance h1 h2 h3 h4 fiveTable ht hc 3 hd [([0, 0, 0, 0, 0, 0, 0, 0, 0, 0], f)] [0, 0, 0, 0, 0, 0, 0, 0, 0, 0] ?_
    · rw [hl4] at this
      exact this
    · have hw : ∀ rs, weight (rowPauli c.n (fiveTable rs)) ≤ 1 := by rw [hn]; exact fiveTable_weight
      have h0 : weight (rowPauli c.n [0, 0, 0, 0, 0, 0, 0, 0, 0, 0]) = 0 := by rw [hn]; decide
      simp only [List.cons_append, List.nil_append, applied, List.map_cons, List.map_nil, List.sum_cons, List.sum_nil, h0]
      have := hw (List.zipWith (· + ·) (signs c.n c.iter (0 + (rowPauli c.n [0, 0, 0, 0, 0, 0, 0, 0, 0, 0]).vec)) f)
      have := fun v => hw (List.zipWith (· + ·) (signs c.n c.iter v) (List.replicate c.iter.length 0))
      grind
  · rw [(C145_rounds h1 h2 h3 h4 fiveTable ht _).2]
    intro hm
    have hz : ∀ v ∈ groupOf c.n c.iter, sympV (rowPauli c.n [0, 0, 0, 0, 0, 1, 1, 1, 1, 1]).vec v = 0 := by
      intro v hv
      unfold groupOf at hv
      induction hv using Submodule.span_induction with
      | zero => simp [sympV, dotp]
      | add x y _ _ hx hy => rw [sympV_add_right, hx, hy, add_zero]
      | smul z x _ hx =>
        rcases zmod2_cases z with rfl | rfl
        · rw [zero_smul]; simp [sympV, dotp]
        · rwa [one_smul]
      | mem x hx =>
        obtain ⟨r, hr, rfl⟩ := hx
        rw [h5] at hr
        simp only [List.mem_cons, List.not_mem_nil, or_false] at hr
        rw [hn]
        rcases hr with rfl | rfl | rfl | rfl <;> decide
    have := hz _ hm
    rw [hit, hn] at this
    revert this
    decide +kernel

end PyQ
