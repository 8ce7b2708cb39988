import Verif.Props.WrongReadings
import Verif.Spec.MidRound

/-! # C146: errors between the measurements of a round -/

namespace PyQ

open Spec Module

theorem productRow_vec (n : ℕ) (es : List (List ℤ)) :
    (rowPauli n (productRow n es)).vec = (es.map fun e => (rowPauli n e).vec).sum := by
  have hget : ∀ j < 2 * n, (((productRow n es).getD j 0 : ℤ) : ZMod 2) = (es.map fun e => ((e.getD j 0 : ℤ) : ZMod 2)).sum := by
    intro j hj
    rw [List.getD_eq_getElem _ _ (by simp [productRow]; exact hj)]
    simp only [productRow, List.getElem_map, List.getElem_range]
    rw [show (((es.map fun e => e.getD j 0).sum % 2 : ℤ) : ZMod 2) = (((es.map fun e => e.getD j 0).sum : ℤ) : ZMod 2) from
      ZMod.intCast_mod _ 2]
    clear hj
    induction es with
    | nil => simp
    | cons e es ih => simp only [List.map_cons, List.sum_cons, Int.cast_add, ih]
  have hs1 : ∀ j : Fin n, ((es.map fun e => (rowPauli n e).vec).sum).1 j = (es.map fun e => ((e.getD j 0 : ℤ) : ZMod 2)).sum := by
    intro j
    clear hget
    induction es with
    | nil => rfl
    | cons e es ih => simp only [List.map_cons, List.sum_cons, ← ih]; rfl
  have hs2 : ∀ j : Fin n, ((es.map fun e => (rowPauli n e).vec).sum).2 j = (es.map fun e => ((e.getD (n + j) 0 : ℤ) : ZMod 2)).sum := by
    intro j
    clear hget hs1
    induction es with
    | nil => rfl
    | cons e es ih => simp only [List.map_cons, List.sum_cons, ← ih]; rfl
  refine Prod.ext (funext fun j => ?_) (funext fun j => ?_)
  · rw [hs1]; exact hget j (by omega)
  · rw [hs2]; exact hget (n + j) (by omega)

section
variable {s : StabInput} {k : ℕ} {c : StabCode}

theorem freshStep_row (h : stabInit s c.n k none = .ok c) (hb : BinaryArr c.stab) (hind : Independent c.n c.stab) {ψ : Amp c.n}
    (hψ : Normalised ψ) (hfix : ∀ g ∈ c.iter, pauliAct (rowPauli c.n g) ψ = ψ) {z : ℂ} (hz : Complex.normSq z = 1) (v : BVec c.n)
    {g : List ℤ} (hg : g ∈ c.iter) (r : ZMod 2) (φ : Amp c.n) :
    FreshStep c (z • pauliAct (ofVec v) ψ) (.bin g) r φ ↔
      r = sympV (rowPauli c.n g).vec v ∧ φ = z • pauliAct (ofVec v) ψ := by
  have hv := round_valid h hb hind hfix z v (.bin g) (List.mem_map_of_mem hg)
  have key := C17_fresh_history c (z • pauliAct (ofVec v) ψ) (normalised_smul' hz (normalised_pauli _ hψ))
    (fun st => symp (st.pauli c.n) (ofVec v)) [.bin g] (by
      intro st hst
      rw [List.mem_singleton] at hst
      rw [hst]; exact hv)
  constructor
  · intro hs
    obtain ⟨k1, k2⟩ := key.1 [r] φ (History.cons hs (History.nil _))
    rw [List.map_singleton, List.singleton_inj] at k1
    exact ⟨k1, k2⟩
  · rintro ⟨rfl, rfl⟩
    have := key.2
    rw [List.map_singleton] at this
    cases this with
    | cons h1 h2 =>
      cases h2
      exact h1

theorem noisy_readings (h : stabInit s c.n k none = .ok c) (hb : BinaryArr c.stab) (hind : Independent c.n c.stab)
    (l : List (List ℤ × List ℤ)) (hl : ∀ x ∈ l, x.2 ∈ c.iter) (v : BVec c.n) :
    ∃ σ : ℂ, Complex.normSq σ = 1 ∧ ∀ ψ : Amp c.n, Normalised ψ → (∀ g ∈ c.iter, pauliAct (rowPauli c.n g) ψ = ψ) →
      ∀ z : ℂ, Complex.normSq z = 1 → ∀ rs φ, NoisyReadings c (z • pauliAct (ofVec v) ψ) l rs φ ↔
        rs = List.zipWith (· + ·) (signs c.n (l.map Prod.snd) (v + (l.map fun x => (rowPauli c.n x.1).vec).sum)) (lateFlips c.n l) ∧
        φ = (z * σ) • pauliAct (ofVec (v + (l.map fun x => (rowPauli c.n x.1).vec).sum)) ψ := by
  induction l generalizing v with
  | nil =>
    refine ⟨1, by simp, fun ψ _ _ z _ rs φ => ?_⟩
    simp only [mul_one, List.map_nil, List.sum_nil, add_zero]
    constructor
    · intro hr; cases hr; exact ⟨rfl, rfl⟩
    · rintro ⟨rfl, rfl⟩; exact NoisyReadings.nil _
  | cons x l ih =>
    obtain ⟨e, g⟩ := x
    have hg : g ∈ c.iter := hl _ List.mem_cons_self
    set p := (rowPauli c.n e).vec with hp
    obtain ⟨σ, hσ, hall⟩ := ih (fun x hx => hl x (List.mem_cons_of_mem _ hx)) (v + p)
    have hτn : Complex.normSq (sgn (dotp p.2 v.1) : ℂ) = 1 := normSq_sgn _
    refine ⟨sgn (dotp p.2 v.1) * σ, by rw [map_mul, hσ, hτn, one_mul], fun ψ hψ hfix z hz rs φ => ?_⟩
    have herr : pauliAct (rowPauli c.n e) (z • pauliAct (ofVec v) ψ) = (z * sgn (dotp p.2 v.1)) • pauliAct (ofVec (v + p)) ψ := by
      rw [pauliAct_smul, ← smul_smul]
      congr 1
      exact pauliAct_ofVec_add p v ψ
    have hzσ : Complex.normSq (z * (sgn (dotp p.2 v.1) : ℂ)) = 1 := by rw [map_mul, hz, hτn, one_mul]
    have hnext := hall ψ hψ hfix _ hzσ
    have hstep := freshStep_row h hb hind hψ hfix hzσ (v + p) hg
    simp only [List.map_cons, List.sum_cons, ← hp, lateFlips]
    set t := (l.map fun x => (rowPauli c.n x.1).vec).sum with ht
    have hhead : sympV (rowPauli c.n g).vec (v + p) = sympV (rowPauli c.n g).vec (v + (p + t)) + sympV (rowPauli c.n g).vec t := by
      rw [← add_assoc, sympV_add_right _ (v + p) t, add_assoc, add_self_z, add_zero]
    have hsig : signs c.n (g :: l.map Prod.snd) (v + (p + t)) =
        sympV (rowPauli c.n g).vec (v + (p + t)) :: signs c.n (l.map Prod.snd) (v + p + t) := by
      rw [← add_assoc]; rfl
    rw [hsig, List.zipWith_cons_cons, ← hhead, ← mul_assoc, ← add_assoc]
    constructor
    · intro hr
      cases hr with
      | cons h1 h2 =>
        rw [herr] at h1
        obtain ⟨rfl, rfl⟩ := (hstep _ _).mp h1
        obtain ⟨rfl, rfl⟩ := (hnext _ _).mp h2
        exact ⟨rfl, rfl⟩
    · rintro ⟨rfl, rfl⟩
      refine NoisyReadings.cons (φ' := (z * sgn (dotp p.2 v.1)) • pauliAct (ofVec (v + p)) ψ) ?_ ?_
      · rw [herr]; exact (hstep _ _).mpr ⟨rfl, rfl⟩
      · exact (hnext _ _).mpr ⟨rfl, rfl⟩

theorem noisy_from (h : stabInit s c.n k none = .ok c) (hb : BinaryArr c.stab) (hind : Independent c.n c.stab)
    {table : List (ZMod 2) → List ℤ} (ht : TableFor c.n table) (ess : List (List (List ℤ)))
    (hlen : ∀ es ∈ ess, es.length = c.iter.length) (v : BVec c.n) :
    ∃ ω : ℂ, Complex.normSq ω = 1 ∧ ∀ ψ : Amp c.n, Normalised ψ → (∀ g ∈ c.iter, pauliAct (rowPauli c.n g) ψ = ψ) →
      ∀ z : ℂ, Complex.normSq z = 1 → ∀ φ, NoisyRounds c table (z • pauliAct (ofVec v) ψ) ess φ ↔
        φ = (ω * z) • pauliAct (ofVec (leftoverFaulty c.n c.iter table v (ess.map (asFaulty c.n c.iter)))) ψ := by
  induction ess generalizing v with
  | nil =>
    refine ⟨1, by simp, fun ψ _ _ z _ φ => ⟨fun hr => ?_, ?_⟩⟩
    · cases hr; rw [one_mul, List.map_nil, leftoverFaulty_nil]
    · rintro rfl; rw [one_mul, List.map_nil, leftoverFaulty_nil]; exact NoisyRounds.nil _
  | cons es ess ih =>
    have hl := hlen es List.mem_cons_self
    have h1 : (es.zip c.iter).map Prod.snd = c.iter := List.map_snd_zip (by omega)
    have h2 : ((es.zip c.iter).map fun x => (rowPauli c.n x.1).vec).sum = (rowPauli c.n (productRow c.n es)).vec := by
      rw [productRow_vec]
      have : (es.zip c.iter).map (fun x => (rowPauli c.n x.1).vec) = ((es.zip c.iter).map Prod.fst).map fun e => (rowPauli c.n e).vec := by
        rw [List.map_map]; rfl
      rw [this, List.map_fst_zip (by omega)]
    obtain ⟨σ, hσn, hread⟩ := noisy_readings h hb hind (es.zip c.iter) (fun x hx => (List.of_mem_zip hx).2) v
    rw [h1, h2] at hread
    set p := (rowPauli c.n (productRow c.n es)).vec with hp
    set f := lateFlips c.n (es.zip c.iter) with hf
    set r := table (List.zipWith (· + ·) (signs c.n c.iter (v + p)) f) with hr
    obtain ⟨ω, hω, hall⟩ := ih (fun es' h' => hlen es' (List.mem_cons_of_mem _ h')) (v + p + (rowPauli c.n r).vec)
    obtain ⟨corr, str, c1, -, -, c4⟩ := C48_apply_stabilizer c.n r (ht _).1 (ht _).2
    set τ : ℂ := Complex.I ^ (str.count 'Y') * sgn (dotp (rowPauli c.n r).vec.2 (v + p).1) with hτ
    have hτn : Complex.normSq τ = 1 := by rw [hτ, map_mul, normSq_sgn, map_pow, Complex.normSq_I, one_pow, one_mul]
    refine ⟨ω * (τ * σ), by rw [map_mul, map_mul, hω, hτn, hσn]; norm_num, fun ψ hψ hfix z hz φ => ?_⟩
    have hcons : leftoverFaulty c.n c.iter table v ((es :: ess).map (asFaulty c.n c.iter)) =
        leftoverFaulty c.n c.iter table (v + p + (rowPauli c.n r).vec) (ess.map (asFaulty c.n c.iter)) :=
      leftoverFaulty_cons c.n c.iter table v (productRow c.n es) f _
    rw [hcons]
    have hzσ : Complex.normSq (z * σ) = 1 := by rw [map_mul, hz, hσn, one_mul]
    have hcorr : run corr ((z * σ) • pauliAct (ofVec (v + p)) ψ) =
        (τ * (z * σ)) • pauliAct (ofVec (v + p + (rowPauli c.n r).vec)) ψ := by
      rw [run_smul, c4]
      have := pauliAct_ofVec_add (rowPauli c.n r).vec (v + p) ψ
      rw [show pauliAct (rowPauli c.n r) (pauliAct (ofVec (v + p)) ψ) = _ from this, smul_smul, smul_smul, hτ]
      congr 1; ring
    have hτz : Complex.normSq (τ * (z * σ)) = 1 := by rw [map_mul, hτn, hzσ, one_mul]
    have hnext := hall ψ hψ hfix (τ * (z * σ)) hτz φ
    have hfin : ω * (τ * (z * σ)) = ω * (τ * σ) * z := by ring
    rw [hfin] at hnext
    constructor
    · intro hR
      cases hR with
      | cons hh hc hrest =>
        obtain ⟨rfl, rfl⟩ := (hread ψ hψ hfix z hz _ _).mp hh
        rw [← hr, c1] at hc
        cases hc
        rw [hcorr] at hrest
        exact hnext.mp hrest
    · intro hφ
      refine NoisyRounds.cons (φ' := (z * σ) • pauliAct (ofVec (v + p)) ψ)
        (rs := List.zipWith (· + ·) (signs c.n c.iter (v + p)) f) (corr := corr)
        ((hread ψ hψ hfix z hz _ _).mpr ⟨rfl, rfl⟩) (by rw [← hr]; exact c1) ?_
      rw [hcorr]; exact hnext.mpr hφ

/-- **C146, one round**.  A Pauli error happens before each measurement of a list of rows of the normal form.  The results are
those for the product of all the errors, except that the result of each row is flipped if the row anticommutes with the product
of the errors that come after it; and the product of all errors is on the encoded state afterwards, up to a sign. -/
theorem C146_readings (h : stabInit s c.n k none = .ok c) (hb : BinaryArr c.stab) (hind : Independent c.n c.stab)
    (hY : ∀ a < c.stab.rows, parityY (rowPauli c.n (c.stab.row a)) = 0)
    (l : List (List ℤ × List ℤ)) (hl : ∀ x ∈ l, x.2 ∈ c.iter) :
    ∃ σ : ℂ, Complex.normSq σ = 1 ∧ ∀ ψ, Encoded c c.n k ψ → Normalised ψ → ∀ rs φ, NoisyReadings c ψ l rs φ ↔
      rs = List.zipWith (· + ·) (signs c.n (l.map Prod.snd) (rowPauli c.n (productRow c.n (l.map Prod.fst))).vec) (lateFlips c.n l) ∧
      φ = σ • pauliAct (rowPauli c.n (productRow c.n (l.map Prod.fst))) ψ := by
  obtain ⟨σ, hσ, hall⟩ := noisy_readings h hb hind l hl 0
  refine ⟨σ, hσ, fun ψ hψ hN rs φ => ?_⟩
  have := hall ψ hN (encoded_fix h hb hind hY hψ) 1 (by simp) rs φ
  rw [one_smul, one_mul, zero_add, show pauliAct (ofVec (0 : BVec c.n)) ψ = ψ from pauliAct_one ψ] at this
  rw [this]
  have e : (l.map fun x => (rowPauli c.n x.1).vec).sum = (rowPauli c.n (productRow c.n (l.map Prod.fst))).vec := by
    rw [productRow_vec, List.map_map]; rfl
  rw [e]
  rfl

/-- **C146**.  Rounds with an error before each of their measurements do the same to whatever is encoded, up to a factor of modulus
one, as rounds with the product of these errors at the beginning and wrongly reported results: of each row that anticommutes
with the product of the errors that come after its measurement.  Both can be carried out, in one way only. -/
theorem C146_as_wrong_readings (h : stabInit s c.n k none = .ok c) (hb : BinaryArr c.stab) (hind : Independent c.n c.stab)
    (hY : ∀ a < c.stab.rows, parityY (rowPauli c.n (c.stab.row a)) = 0)
    (table : List (ZMod 2) → List ℤ) (ht : TableFor c.n table) (ess : List (List (List ℤ)))
    (hlen : ∀ es ∈ ess, es.length = c.iter.length) :
    ∃ ω : ℂ, Complex.normSq ω = 1 ∧ ∀ ψ, Encoded c c.n k ψ → Normalised ψ →
      ∃ φ, (∀ φ', FaultyRounds c table ψ (ess.map (asFaulty c.n c.iter)) φ' ↔ φ' = φ) ∧
        ∀ φ', NoisyRounds c table ψ ess φ' ↔ φ' = ω • φ := by
  obtain ⟨ω, hω, hall⟩ := noisy_from h hb hind ht ess hlen 0
  obtain ⟨⟨ω', hω', hR⟩, -⟩ := C145_rounds h hb hind hY table ht (ess.map (asFaulty c.n c.iter))
  have h0 : ω' ≠ 0 := fun h0 => by rw [h0, map_zero] at hω'; exact zero_ne_one hω'
  refine ⟨ω * ω'⁻¹, by rw [map_mul, map_inv₀, hω, hω']; norm_num, fun ψ hψ hN =>
    ⟨ω' • pauliAct (ofVec (leftoverFaulty c.n c.iter table 0 (ess.map (asFaulty c.n c.iter)))) ψ, hR ψ hψ hN, fun φ' => ?_⟩⟩
  have := hall ψ hN (encoded_fix h hb hind hY hψ) 1 (by simp) φ'
  rw [one_smul, mul_one, show pauliAct (ofVec (0 : BVec c.n)) ψ = ψ from pauliAct_one ψ] at this
  rw [this, smul_smul, mul_assoc, inv_mul_cancel₀ h0, mul_one]

/-- **C146, restored**.  Such rounds restore whatever is encoded exactly when the product of all errors and applied rows is in
the group the rows generate. -/
theorem C146_restored_iff (h : stabInit s c.n k none = .ok c) (hb : BinaryArr c.stab) (hind : Independent c.n c.stab)
    (hY : ∀ a < c.stab.rows, parityY (rowPauli c.n (c.stab.row a)) = 0)
    (table : List (ZMod 2) → List ℤ) (ht : TableFor c.n table) (ess : List (List (List ℤ)))
    (hlen : ∀ es ∈ ess, es.length = c.iter.length) :
    (∃ z : ℂ, ∀ ψ, Encoded c c.n k ψ → Normalised ψ → ∀ φ, NoisyRounds c table ψ ess φ → φ = z • ψ) ↔
      leftoverFaulty c.n c.iter table 0 (ess.map (asFaulty c.n c.iter)) ∈ groupOf c.n c.iter := by
  obtain ⟨ω, hω, hall⟩ := noisy_from h hb hind ht ess hlen 0
  refine (restored_iff h hb hind hY hω fun ψ hψ hN φ => ?_).1
  have := hall ψ hN (encoded_fix h hb hind hY hψ) 1 (by simp) φ
  rwa [one_smul, mul_one, show pauliAct (ofVec (0 : BVec c.n)) ψ = ψ from pauliAct_one ψ] at this

theorem weight_product (n : ℕ) (es : List (List ℤ)) :
    weight (rowPauli n (productRow n es)) ≤ (es.map fun e => weight (rowPauli n e)).sum := by
  have : ∀ l : List (List ℤ), weight (ofVec (l.map fun e => (rowPauli n e).vec).sum) ≤ (l.map fun e => weight (rowPauli n e)).sum := by
    intro l
    induction l with
    | nil => simp [weight, ofVec]
    | cons e l ih =>
      simp only [List.map_cons, List.sum_cons]
      exact (weight_add (rowPauli n e) (ofVec (l.map fun e => (rowPauli n e).vec).sum) _ rfl).trans (Nat.add_le_add_left ih _)
  have h := this es
  rw [← productRow_vec] at h
  exact h

theorem lateFlips_none (n : ℕ) (l : List (List ℤ × List ℤ)) (hl : ∀ x ∈ l.tail, (rowPauli n x.1).vec = 0) :
    lateFlips n l = List.replicate l.length 0 := by
  induction l with
  | nil => rfl
  | cons x l ih =>
    obtain ⟨e, g⟩ := x
    have h0 : (l.map fun x => (rowPauli n x.1).vec).sum = 0 := by
      refine List.sum_eq_zero fun v hv => ?_
      obtain ⟨x, hx, rfl⟩ := List.mem_map.mp hv
      exact hl x hx
    rw [lateFlips, h0, ih fun x hx => hl x (List.mem_of_mem_tail hx), List.length_cons, List.replicate_succ]
    simp [sympV, dotp]

/-- **C146, distance**.  A code of distance at least `d` and a table of which every row has the signs it is looked up with.  If
in the last round no error comes after the first measurement, and all errors and all rows applied together touch fewer
than `d` qubits, counted with repetition, whatever was encoded is back, wherever in the other rounds the errors were. -/
theorem C146_distance (h : stabInit s c.n k none = .ok c) (hb : BinaryArr c.stab) (hind : Independent c.n c.stab)
    (hY : ∀ a < c.stab.rows, parityY (rowPauli c.n (c.stab.row a)) = 0)
    (table : List (ZMod 2) → List ℤ) (ht : TableFor c.n table)
    (hc : ∀ rs, rs.length = c.iter.length → signs c.n c.iter (rowPauli c.n (table rs)).vec = rs)
    (d : ℕ) (hd : DistanceAtLeast c.n c.iter d) (ess : List (List (List ℤ))) (last : List (List ℤ))
    (hlen : ∀ es ∈ ess ++ [last], es.length = c.iter.length) (hlast : ∀ e ∈ last.tail, (rowPauli c.n e).vec = 0)
    (hw : ((ess ++ [last]).map fun es => (es.map fun e => weight (rowPauli c.n e)).sum).sum +
      ((applied c.n c.iter table 0 ((ess ++ [last]).map (asFaulty c.n c.iter))).map fun r => weight (rowPauli c.n r)).sum < d) :
    ∃ z : ℂ, Complex.normSq z = 1 ∧ ∀ ψ, Encoded c c.n k ψ → Normalised ψ → ∀ φ,
      NoisyRounds c table ψ (ess ++ [last]) φ ↔ φ = z • ψ := by
  obtain ⟨ω, hω, hall⟩ := C146_as_wrong_readings h hb hind hY table ht (ess ++ [last]) hlen
  have hl := hlen last (by simp)
  have he : (ess ++ [last]).map (asFaulty c.n c.iter) =
      ess.map (asFaulty c.n c.iter) ++ [(productRow c.n last, List.replicate c.iter.length 0)] := by
    rw [List.map_append, List.map_singleton]
    congr 2
    unfold asFaulty
    rw [lateFlips_none, List.length_zip, hl, min_self]
    intro x hx
    refine hlast x.1 ?_
    clear hall hw hlen hl hlast
    cases last with
    | nil => simp at hx
    | cons e last =>
      cases hi : c.iter with
      | nil => rw [hi] at hx; simp at hx
      | cons g l =>
        rw [hi, List.zip_cons_cons, List.tail_cons] at hx
        exact (List.of_mem_zip hx).1
  obtain ⟨z, hz, hback⟩ := C145_distance h hb hind hY table ht hc d hd (ess.map (asFaulty c.n c.iter)) (productRow c.n last) (by
    rw [← he]
    refine lt_of_le_of_lt (Nat.add_le_add_right ?_ _) hw
    rw [List.map_map]
    exact List.sum_le_sum fun es _ => weight_product c.n es)
  rw [← he] at hback
  refine ⟨ω * z, by rw [map_mul, hω, hz, one_mul], fun ψ hψ hN φ => ?_⟩
  obtain ⟨χ, h1, h2⟩ := hall ψ hψ hN
  have h3 : χ = z • ψ := (hback ψ hψ hN χ).mp ((h1 χ).mpr rfl)
  rw [h2, h3, smul_smul]

end

/-- **C146**, an instance and a limit: with the five-qubit code and its table, a Z on the first qubit before the last measurement of
a round is repaired by a further round without errors; an X at the same place is not. -/
theorem C146_five_qubits : ∃ c, stabInit (.rows fiveRows) c.n 1 none = .ok c ∧ c.n = 5 ∧ TableFor c.n fiveTable ∧
    (∃ z : ℂ, Complex.normSq z = 1 ∧ ∀ ψ, Encoded c c.n 1 ψ → Normalised ψ → ∀ φ,
      NoisyRounds c fiveTable ψ [[[], [], [], [0, 0, 0, 0, 0, 1, 0, 0, 0, 0]], [[], [], [], []]] φ ↔ φ = z • ψ) ∧
    ¬ ∃ z : ℂ, ∀ ψ, Encoded c c.n 1 ψ → Normalised ψ → ∀ φ,
      NoisyRounds c fiveTable ψ [[[], [], [], [1, 0, 0, 0, 0, 0, 0, 0, 0, 0]], [[], [], [], []]] φ → φ = z • ψ := by
  obtain ⟨c, h1, h2, h3, h4, h5⟩ := five_code
  have hn : c.n = 5 := (accepted_facts h1 h2 h3).1
  rw [← hn] at h1 h3 h4
  have ht : TableFor c.n fiveTable := by rw [hn]; exact fiveTable_for
  have hit : c.iter = fiveIter := h5
  have hc : ∀ rs, rs.length = c.iter.length → signs c.n c.iter (rowPauli c.n (fiveTable rs)).vec = rs := by
    rw [hit, hn]; exact fiveTable_signs
  have hd : DistanceAtLeast c.n c.iter 3 := by
    rw [hn]
    intro p hp hno
    by_contra hlt
    exact hno (five_distance h5 p (by omega) hp)
  refine ⟨c, h1, hn, ht, ?_, ?_⟩
  · refine C146_distance h1 h2 h3 h4 fiveTable ht hc 3 hd [[[], [], [], [0, 0, 0, 0, 0, 1, 0, 0, 0, 0]]] [[], [], [], []] ?_ ?_ ?_
    · rw [hit]; decide
    · rw [hn]; decide
    · rw [hit, hn]; decide +kernel
  · rw [C146_restored_iff h1 h2 h3 h4 fiveTable ht _ (by rw [hit]; decide)]
    intro hm
    have hz : ∀ v ∈ groupOf c.n c.iter, sympV (rowPauli c.n [1, 1, 1, 1, 1, 0, 0, 0, 0, 0]).vec v = 0 := by
      intro v hv
      unfold groupOf at hv
      induction hv using Submodule.span_induction with
      | zero => simp [sympV, dotp]
      | add x y _ _ hx hy => rw [sympV_add_right, hx, hy, add_zero]
      | smul z x _ hx =>
        rcases zmod2_cases z with rfl | rfl
        · rw [zero_smul]; simp [sympV, dotp]
        · rwa [one_smul]
      | mem x hx =>
        obtain ⟨r, hr, rfl⟩ := hx
        rw [h5] at hr
        simp only [List.mem_cons, List.not_mem_nil, or_false] at hr
        rw [hn]
        rcases hr with rfl | rfl | rfl | rfl <;> decide
    have := hz _ hm
    rw [hit, hn] at this
    revert this
    decide +kernel

end PyQ
