import Verif.Props.EndToEnd
import Verif.Spec.Distance

/-! # C73: which sets of errors one table of corrections undoes -/

namespace PyQ

open Spec Module

/-- `table` undoes every error of `E`: for each of the errors there is one factor such that, whatever is encoded, whatever
results the measurements of all the rows of the normal form give after the error, applying the row `table` holds for these
results gives back the encoded state times the factor, and decoding then gives the logical state times the factor. -/
def Undoes (c : StabCode) (k : ℕ) (E : Set (List ℤ)) (table : List (ZMod 2) → List ℤ) : Prop :=
  ∃ (enc : (Fin k → ZMod 2) → List Gate) (dec : List Gate), (∀ δ, encodingCircuit c c.n (bitsList δ) = .ok (enc δ)) ∧
    decodingCircuit c c.n true = .ok dec ∧
    ∀ e ∈ E, ∃ ω : ℂ, Complex.normSq ω = 1 ∧ ∀ α : (Fin k → ZMod 2) → ℂ, Normalised α → ∀ rs φ,
      History (FreshStep c) (pauliAct (rowPauli c.n e) (∑ δ, α δ • run (enc δ) (ket 0))) (c.iter.map StabArg.bin) rs φ →
      ∃ corr, applyStabilizerCircuit c.n (.bin (table rs)) = .ok corr ∧
        run corr φ = ω • ∑ δ, α δ • run (enc δ) (ket 0) ∧
        run dec (tensor (run corr φ) (ket 0)) = ω • tensor (run (enc 0) (ket 0)) (∑ δ, α δ • ket δ)

theorem normalised_all {k n : ℕ} {f g : ((Fin k → ZMod 2) → ℂ) → Amp n} (hf : ∀ (z : ℂ) α, f (z • α) = z • f α)
    (hg : ∀ (z : ℂ) α, g (z • α) = z • g α) (h : ∀ α, Normalised (N := k) α → f α = g α) (α : (Fin k → ZMod 2) → ℂ) : f α = g α := by
  by_cases h0 : α = 0
  · subst h0
    have h1 := hf 0 0; have h2 := hg 0 0
    simp only [zero_smul] at h1 h2
    rw [h1, h2]
  · set t : ℝ := ∑ b, Complex.normSq (α b) with ht
    have hpos : 0 < t := by
      obtain ⟨b, hb⟩ := Function.ne_iff.mp h0
      exact Finset.sum_pos' (fun _ _ => Complex.normSq_nonneg _) ⟨b, Finset.mem_univ _, Complex.normSq_pos.mpr hb⟩
    have hs : Real.sqrt t ≠ 0 := (Real.sqrt_pos.mpr hpos).ne'
    have hα : α = ((Real.sqrt t : ℝ) : ℂ) • (((Real.sqrt t)⁻¹ : ℝ) : ℂ) • α := by
      rw [smul_smul, ← Complex.ofReal_mul, mul_inv_cancel₀ hs]; simp
    rw [hα, hf, hg, h]
    show ∑ b, Complex.normSq (((((Real.sqrt t)⁻¹ : ℝ) : ℂ) • α) b) = 1
    simp only [Pi.smul_apply, smul_eq_mul, Complex.normSq_mul, Complex.normSq_ofReal]
    rw [← Finset.mul_sum, ← ht, ← mul_inv, Real.mul_self_sqrt hpos.le, inv_mul_cancel₀ hpos.ne']

/-- **C73**.  For an accepted code with independent generators, each with an even number of `Y`s: some table of corrections
undoes every error of a set exactly when any two errors of the set that anticommute with the same rows of the normal form
differ by an operator of the group the rows generate. -/
theorem C73_correctable (s : StabInput) (k : ℕ) (c : StabCode) (h : stabInit s c.n k none = .ok c)
    (hb : BinaryArr c.stab) (hind : Independent c.n c.stab)
    (hY : ∀ a < c.stab.rows, parityY (rowPauli c.n (c.stab.row a)) = 0)
    (E : Set (List ℤ)) (hE : ∀ e ∈ E, e.length = 2 * c.n ∧ IsBinary e) :
    (∃ table : List (ZMod 2) → List ℤ, (∀ rs, (table rs).length = 2 * c.n ∧ IsBinary (table rs)) ∧ Undoes c k E table) ↔
      ∀ e ∈ E, ∀ e' ∈ E, (∀ g ∈ c.iter, symp (rowPauli c.n g) (rowPauli c.n e) = symp (rowPauli c.n g) (rowPauli c.n e')) →
        (rowPauli c.n e).vec + (rowPauli c.n e').vec ∈ groupOf c.n c.iter := by
  classical
  obtain ⟨enc, e1, e2, e3⟩ := encoded_family h hb hind
  have uniq : ∀ {enc' : (Fin k → ZMod 2) → List Gate}, (∀ δ, encodingCircuit c c.n (bitsList δ) = .ok (enc' δ)) → enc' = enc := by
    intro enc' h'
    funext δ
    have h1 := h' δ
    rw [e1] at h1
    exact (Except.ok.inj h1).symm
  have hmeas : ∀ (e : Pauli c.n) (α : (Fin k → ZMod 2) → ℂ), Normalised α → ∀ rs φ',
      History (FreshStep c) (pauliAct e (∑ δ, α δ • run (enc δ) (ket 0))) (c.iter.map StabArg.bin) rs φ' ↔
        rs = c.iter.map (fun g => symp (rowPauli c.n g) e) ∧ φ' = pauliAct e (∑ δ, α δ • run (enc δ) (ket 0)) := by
    intro e α hα
    obtain ⟨enc', f1, f2⟩ := C62_syndrome s k c h hb hind hY e α hα
    obtain rfl := uniq f1
    exact f2
  constructor
  · rintro ⟨table, ht, enc', dec, f1, f2, f3⟩ e he e' he' hsame
    obtain rfl := uniq f1
    set r := table (c.iter.map fun g => symp (rowPauli c.n g) (rowPauli c.n e)) with hr
    have hr' : table (c.iter.map fun g => symp (rowPauli c.n g) (rowPauli c.n e')) = r := by
      rw [hr]; congr 1; exact List.map_inj_left.mpr fun g hg => (hsame g hg).symm
    have key : ∀ a ∈ E, table (c.iter.map fun g => symp (rowPauli c.n g) (rowPauli c.n a)) = r →
        (rowPauli c.n a).vec + (rowPauli c.n r).vec ∈ groupOf c.n c.iter := by
      intro a ha har
      obtain ⟨enc'', corr, dec', g1, g2, -, g4, -⟩ := C61_correction s c.n k c h hb hind hY a r (ht _).1 (ht _).2
      obtain rfl := uniq g1
      obtain ⟨ω, -, hω⟩ := f3 a ha
      refine g4.mp ⟨ω, ?_⟩
      refine normalised_all (f := fun α => run corr (pauliAct (rowPauli c.n a) (∑ δ, α δ • (run (enc'' δ) (ket 0) : Amp c.n))))
        (g := fun α => ω • ∑ δ, α δ • (run (enc'' δ) (ket 0) : Amp c.n)) ?_ ?_ ?_
      · intro z α
        simp only [Pi.smul_apply, smul_assoc, ← Finset.smul_sum, pauliAct_smul, run_smul]
      · intro z α
        simp only [Pi.smul_apply, smul_assoc, ← Finset.smul_sum]
        rw [smul_comm]
      · intro α hα
        obtain ⟨corr', i1, i2, -⟩ := hω α hα _ _ ((hmeas _ α hα _ _).mpr ⟨rfl, rfl⟩)
        rw [har, g2] at i1
        cases i1
        exact i2
    have h1 := key e he hr.symm
    have h2 := key e' he' hr'
    have h3 := add_mem h1 h2
    have : (rowPauli c.n e).vec + (rowPauli c.n r).vec + ((rowPauli c.n e').vec + (rowPauli c.n r).vec) =
        (rowPauli c.n e).vec + (rowPauli c.n e').vec := by
      have hz : (rowPauli c.n r).vec + (rowPauli c.n r).vec = 0 := by rw [← two_smul (ZMod 2)]; exact zero_smul _ _
      rw [add_add_add_comm, hz, add_zero]
    rwa [this] at h3
  · intro hcond
    let table : List (ZMod 2) → List ℤ := fun rs =>
      if hx : ∃ e ∈ E, rs = c.iter.map (fun g => symp (rowPauli c.n g) (rowPauli c.n e)) then hx.choose else List.replicate (2 * c.n) 0
    have htab : ∀ rs, (table rs).length = 2 * c.n ∧ IsBinary (table rs) := by
      intro rs
      simp only [table]
      split_ifs with hx
      · exact hE _ hx.choose_spec.1
      · exact ⟨List.length_replicate, fun a ha => Or.inl (List.eq_of_mem_replicate ha)⟩
    obtain ⟨enc0, corr0, dec, g1, -, g3, -, -⟩ := C61_correction s c.n k c h hb hind hY (table []) (table []) (htab _).1 (htab _).2
    obtain rfl := uniq g1
    refine ⟨table, htab, enc0, dec, e1, g3, ?_⟩
    intro e he
    set rs0 := c.iter.map (fun g => symp (rowPauli c.n g) (rowPauli c.n e)) with hrs0
    have hx : ∃ e' ∈ E, rs0 = c.iter.map (fun g => symp (rowPauli c.n g) (rowPauli c.n e')) := ⟨e, he, rfl⟩
    have ht0 : table rs0 = hx.choose := by simp only [table]; rw [dif_pos hx]
    have hmem : (rowPauli c.n e).vec + (rowPauli c.n (table rs0)).vec ∈ groupOf c.n c.iter := by
      rw [ht0]
      exact hcond e he _ hx.choose_spec.1 fun g hg => List.map_inj_left.mp hx.choose_spec.2 g hg
    obtain ⟨enc', corr, dec', i1, i2, i3, i4, i5⟩ := C61_correction s c.n k c h hb hind hY e (table rs0) (htab _).1 (htab _).2
    obtain rfl := uniq i1
    rw [g3] at i3
    cases i3
    obtain ⟨ω, hω⟩ := i4.mpr hmem
    obtain ⟨j1, j2⟩ := i5 ω hω
    refine ⟨ω, j1, ?_⟩
    intro α hα rs φ hh
    obtain ⟨rfl, rfl⟩ := (hmeas _ α hα _ _).mp hh
    exact ⟨corr, i2, hω α, j2 α⟩

theorem weight_add {n : ℕ} (p q r : Pauli n) (h : r.vec = p.vec + q.vec) : weight r ≤ weight p + weight q := by
  classical
  unfold weight
  refine le_trans (Finset.card_le_card ?_) (Finset.card_union_le _ _)
  intro j
  simp only [Finset.mem_filter, Finset.mem_univ, true_and, Finset.mem_union]
  intro hj
  by_contra hcon
  push Not at hcon
  obtain ⟨⟨a1, a2⟩, b1, b2⟩ := hcon
  have hx : r.x j = p.x j + q.x j := congrFun (congrArg Prod.fst h) j
  have hz : r.z j = p.z j + q.z j := congrFun (congrArg Prod.snd h) j
  rw [hx, hz, a1, a2, b1, b2] at hj
  simp at hj

/-- **C73**.  If no operator on at most `2 t` qubits commutes with all rows of the normal form except the operators of the
group they generate, one table of corrections undoes every error on at most `t` qubits. -/
theorem C73_distance (s : StabInput) (k : ℕ) (c : StabCode) (h : stabInit s c.n k none = .ok c)
    (hb : BinaryArr c.stab) (hind : Independent c.n c.stab)
    (hY : ∀ a < c.stab.rows, parityY (rowPauli c.n (c.stab.row a)) = 0) (t : ℕ)
    (hd : ∀ p : Pauli c.n, weight p ≤ 2 * t → (∀ g ∈ c.iter, symp (rowPauli c.n g) p = 0) → p.vec ∈ groupOf c.n c.iter) :
    ∃ table : List (ZMod 2) → List ℤ, (∀ rs, (table rs).length = 2 * c.n ∧ IsBinary (table rs)) ∧
      Undoes c k {e | e.length = 2 * c.n ∧ IsBinary e ∧ weight (rowPauli c.n e) ≤ t} table := by
  refine (C73_correctable s k c h hb hind hY _ fun e he => ⟨he.1, he.2.1⟩).mpr ?_
  intro e he e' he' hsame
  have hv : (ofVec ((rowPauli c.n e).vec + (rowPauli c.n e').vec)).vec = (rowPauli c.n e).vec + (rowPauli c.n e').vec := rfl
  rw [← hv]
  refine hd _ (le_trans (weight_add _ _ _ hv) (by have := he.2.2; have := he'.2.2; omega)) ?_
  intro g hg
  rw [← sympV_vec, hv, sympV_add_right]
  have hz : ∀ a b : ZMod 2, a = b → a + b = 0 := by decide
  exact hz _ _ (hsame g hg)

/-- The generators XZZXI, IXZZX, XIXZZ and ZXIXZ. -/
def fiveRows : List (List ℤ) :=
  [[1, 0, 0, 1, 0, 0, 1, 1, 0, 0], [0, 1, 0, 0, 1, 0, 0, 1, 1, 0], [1, 0, 1, 0, 0, 0, 0, 0, 1, 1], [0, 1, 0, 1, 0, 1, 0, 0, 0, 1]]

theorem five_code : ∃ c, stabInit (.rows fiveRows) 5 1 none = .ok c ∧
    BinaryArr c.stab ∧ Independent 5 c.stab ∧ (∀ a < c.stab.rows, parityY (rowPauli 5 (c.stab.row a)) = 0) ∧
    c.iter = [[1, 0, 0, 0, 1, 1, 1, 0, 1, 1], [0, 1, 0, 0, 1, 0, 0, 1, 1, 0], [0, 0, 1, 0, 1, 1, 1, 0, 0, 0],
      [0, 0, 0, 1, 1, 1, 0, 1, 1, 1]] := by
  obtain ⟨c, h1, h2, h3, h4, -, h6⟩ := concrete_code (l := fiveRows) (n := 5) (k := 1)
    (r := 4) (e := 0) (by decide) (by decide) (by decide) (by unfold IsBinary; decide) (by decide)
    (independent_cert _ (fun j a => if (j, a) ∈ [(0, 0), (0, 1), (0, 3), (1, 1), (2, 0), (2, 1), (2, 2), (2, 3), (3, 1), (3, 3)]
      then 1 else 0) (by decide))
    (fun F _ => rank_cert (M := Matrix.of fun (i : Fin 4) (j : Fin 5) => (Arr.ofRows (2 * 5) fiveRows).get i j)
      1 (Matrix.of fun (i : Fin 4) (j : Fin 5) => (Arr.ofRows (2 * 5) fiveRows).get i j)
      !![1, 1, 0, -1; 0, 1, 0, 0; -1, -1, 1, 1; 0, -1, 0, 1] !![1, 0, 0, 0; 0, 1, 0, 0; 0, 0, 1, 0; 0, 0, 0, 1; 0, 0, 0, 0]
      (by simp) (by decide) F)
    (Or.inl rfl)
  rw [if_pos (by decide)] at h6
  refine ⟨c, h1, h2, h3, ?_⟩
  unfold StabCode.iter
  rw [h4, h6]
  exact ⟨by decide, by decide⟩

theorem support_two {n : ℕ} (p : Pauli (n + 1)) (h : weight p ≤ 2) :
    ∃ i j : Fin (n + 1), p.x = (fun l => if l = i then p.x i else if l = j then p.x j else 0) ∧
      p.z = (fun l => if l = i then p.z i else if l = j then p.z j else 0) := by
  classical
  set S := Finset.univ.filter fun j => p.x j ≠ 0 ∨ p.z j ≠ 0 with hS
  have key : ∃ i j : Fin (n + 1), ∀ l, l ≠ i → l ≠ j → l ∉ S := by
    have hc : S.card ≤ 2 := h
    interval_cases hh : S.card
    · exact ⟨0, 0, fun l _ _ => by rw [Finset.card_eq_zero.mp hh]; exact Finset.notMem_empty _⟩
    · obtain ⟨i, hi⟩ := Finset.card_eq_one.mp hh
      exact ⟨i, i, fun l hl _ => by rw [hi]; simpa using hl⟩
    · obtain ⟨i, j, -, hi⟩ := Finset.card_eq_two.mp hh
      exact ⟨i, j, fun l hl hl' => by rw [hi]; simp [hl, hl']⟩
  obtain ⟨i, j, hij⟩ := key
  have hz : ∀ l, l ≠ i → l ≠ j → p.x l = 0 ∧ p.z l = 0 := by
    intro l h1 h2
    have := hij l h1 h2
    simp only [hS, Finset.mem_filter, Finset.mem_univ, true_and] at this
    push Not at this
    exact this
  refine ⟨i, j, funext fun l => ?_, funext fun l => ?_⟩
  all_goals
    by_cases h1 : l = i
    · subst h1; simp
    · by_cases h2 : l = j
      · subst h2; simp [h1]
      · simp [h1, h2, hz l h1 h2]

/-- Only the identity acts on at most two qubits and commutes with all rows of the code of XZZXI, IXZZX, XIXZZ and ZXIXZ. -/
theorem five_trivial {c : StabCode} (h5 : c.iter = [[1, 0, 0, 0, 1, 1, 1, 0, 1, 1], [0, 1, 0, 0, 1, 0, 0, 1, 1, 0],
      [0, 0, 1, 0, 1, 1, 1, 0, 0, 0], [0, 0, 0, 1, 1, 1, 0, 1, 1, 1]]) (p : Pauli 5) (hp : weight p ≤ 2)
    (hs : ∀ g ∈ c.iter, symp (rowPauli 5 g) p = 0) : p.vec = 0 := by
  obtain ⟨i, j, hx, hz⟩ := support_two p hp
  have hfin : ∀ i j : Fin 5, ∀ a b a' b' : ZMod 2, (∀ g ∈ ([[1, 0, 0, 0, 1, 1, 1, 0, 1, 1], [0, 1, 0, 0, 1, 0, 0, 1, 1, 0],
        [0, 0, 1, 0, 1, 1, 1, 0, 0, 0], [0, 0, 0, 1, 1, 1, 0, 1, 1, 1]] : List (List ℤ)),
        symp (rowPauli 5 g) ⟨fun l => if l = i then a else if l = j then a' else 0,
          fun l => if l = i then b else if l = j then b' else 0⟩ = 0) → a = 0 ∧ b = 0 ∧ (j = i ∨ a' = 0 ∧ b' = 0) := by
    decide +kernel
  have hp0 : p = ⟨fun l => if l = i then p.x i else if l = j then p.x j else 0,
      fun l => if l = i then p.z i else if l = j then p.z j else 0⟩ := by
    rw [← hx, ← hz]
  have hr := hfin i j (p.x i) (p.z i) (p.x j) (p.z j) (by rw [h5, hp0] at hs; exact hs)
  refine Prod.ext (funext fun l => ?_) (funext fun l => ?_)
  · show p.x l = 0
    rw [hx]
    obtain ⟨a1, a2, rfl | ⟨a3, a4⟩⟩ := hr
    · simp only [a1, ite_self]
    · simp only [a1, a3, ite_self]
  · show p.z l = 0
    rw [hz]
    obtain ⟨a1, a2, rfl | ⟨a3, a4⟩⟩ := hr
    · simp only [a2, ite_self]
    · simp only [a2, a4, ite_self]

theorem five_distance {c : StabCode} (h5 : c.iter = [[1, 0, 0, 0, 1, 1, 1, 0, 1, 1], [0, 1, 0, 0, 1, 0, 0, 1, 1, 0],
      [0, 0, 1, 0, 1, 1, 1, 0, 0, 0], [0, 0, 0, 1, 1, 1, 0, 1, 1, 1]]) (p : Pauli 5) (hp : weight p ≤ 2)
    (hs : ∀ g ∈ c.iter, symp (rowPauli 5 g) p = 0) : p.vec ∈ groupOf 5 c.iter := by
  rw [five_trivial h5 p hp hs]
  exact Submodule.zero_mem _

/-- **C73**, an instance: the code of XZZXI, IXZZX, XIXZZ and ZXIXZ is accepted, and one table of corrections undoes every
error on one of its qubits. -/
theorem C73_five_qubits : ∃ c, stabInit (.rows fiveRows) c.n 1 none = .ok c ∧ c.n = 5 ∧
    ∃ table : List (ZMod 2) → List ℤ, (∀ rs, (table rs).length = 2 * c.n ∧ IsBinary (table rs)) ∧
      Undoes c 1 {e | e.length = 2 * c.n ∧ IsBinary e ∧ weight (rowPauli c.n e) ≤ 1} table := by
  obtain ⟨c, h1, h2, h3, h4, h5⟩ := five_code
  have hn : c.n = 5 := (accepted_facts h1 h2 h3).1
  refine ⟨c, by rw [hn]; exact h1, hn, ?_⟩
  refine C73_distance (.rows fiveRows) 1 c (by rw [hn]; exact h1) h2 (by rw [hn]; exact h3) (by rw [hn]; exact h4) 1 ?_
  rw [hn]
  exact five_distance h5

/-- **C73**, an instance of the other direction: XXXX and ZZZZ are accepted, and no table of corrections undoes both X on the
first and X on the second qubit. -/
theorem C73_four_qubits : ∃ c, stabInit (.rows [[1, 1, 1, 1, 0, 0, 0, 0], [0, 0, 0, 0, 1, 1, 1, 1]]) c.n 2 none = .ok c ∧ c.n = 4 ∧
    ¬ ∃ table : List (ZMod 2) → List ℤ, (∀ rs, (table rs).length = 2 * c.n ∧ IsBinary (table rs)) ∧
      Undoes c 2 {[1, 0, 0, 0, 0, 0, 0, 0], [0, 1, 0, 0, 0, 0, 0, 0]} table := by
  obtain ⟨c, h1, h2, h3, -, h4, h5, h6, h7, h8, h9⟩ := code422
  have hn : c.n = 4 := (accepted_facts h1 h2 h3).1
  have hit : c.iter = [[1, 1, 1, 1, 0, 0, 0, 0], [0, 0, 0, 0, 1, 1, 1, 1]] := by
    unfold StabCode.iter
    rw [h7]
    simp only [List.range_succ, List.range_zero, List.nil_append, List.map_append, List.map_cons, List.map_nil]
    rw [h8, h9]; rfl
  refine ⟨c, by rw [hn]; exact h1, hn, ?_⟩
  rw [C73_correctable _ 2 c (by rw [hn]; exact h1) h2 (by rw [hn]; exact h3) ?_ _ ?_]
  · intro hall
    have hmem := hall [1, 0, 0, 0, 0, 0, 0, 0] (by simp) [0, 1, 0, 0, 0, 0, 0, 0] (by simp) (by rw [hn, hit]; decide)
    rw [hn] at hmem
    have hz : ∀ v ∈ groupOf 4 c.iter, sympV (rowPauli 4 [0, 0, 0, 0, 1, 0, 0, 1]).vec v = 0 := by
      intro v hv
      refine Submodule.span_induction ?_ ?_ ?_ ?_ hv
      · rintro v ⟨r, hr, rfl⟩
        rw [hit] at hr
        fin_cases hr <;> decide
      · decide
      · intro a b _ _ ha hb
        rw [sympV_add_right, ha, hb, add_zero]
      · intro t a _ ha
        have ht : t = 0 ∨ t = 1 := (by decide : ∀ t : ZMod 2, t = 0 ∨ t = 1) t
        obtain rfl | rfl := ht
        · rw [zero_smul]; decide
        · rw [one_smul]; exact ha
    exact absurd (hz _ hmem) (by decide)
  · intro a ha
    rw [h4] at ha
    rw [hn]
    match a, ha with
    | 0, _ => rw [h5]; decide
    | 1, _ => rw [h6]; decide
  · rw [hn]
    rintro e (rfl | rfl) <;> exact ⟨by decide, by unfold IsBinary; decide⟩

end PyQ
