import Verif.Props.Tables

/-! # C116: which table of corrections is best for noise of known probabilities -/

namespace PyQ

open Spec Module

instance {n : ℕ} : Fintype (Pauli n) := Fintype.ofEquiv (BVec n) ⟨ofVec, Pauli.vec, fun _ => rfl, fun _ => rfl⟩

open Classical in
/-- Pauli errors happen with probabilities `q`: the probability that the error is one the table undoes. -/
noncomputable def undoneProb (c : StabCode) (k : ℕ) (q : Pauli c.n → ℝ) (table : List (ZMod 2) → List ℤ) : ℝ :=
  ∑ p, if Undoes c k {pauliRow p} table then q p else 0

open Classical in
/-- The probability of the errors with given results that a given entry undoes. -/
noncomputable def entryProb (c : StabCode) (q : Pauli c.n → ℝ) (σ : Fin c.iter.length → ZMod 2) (r : BVec c.n) : ℝ :=
  ∑ p : Pauli c.n, if readsV (genV c) p.vec = σ ∧ p.vec + r ∈ Submodule.span (ZMod 2) (Set.range (genV c)) then q p else 0

section

variable {s : StabInput} {k : ℕ} {c : StabCode} {q : Pauli c.n → ℝ}

theorem sameSyndrome_reads (c : StabCode) (p p' : Pauli c.n) :
    SameSyndrome c.iter p p' ↔ readsV (genV c) p.vec = readsV (genV c) p'.vec := by
  rw [← List.ofFn_injective.eq_iff, ← genV_reads, ← genV_reads, List.map_inj_left]
  rfl

theorem undoneProb_sum (h : stabInit s c.n k none = .ok c) (hb : BinaryArr c.stab) (hind : Independent c.n c.stab)
    (hY : ∀ a < c.stab.rows, parityY (rowPauli c.n (c.stab.row a)) = 0) (table : List (ZMod 2) → List ℤ) (ht : TableFor c.n table) :
    undoneProb c k q table = ∑ σ, entryProb c q σ (tabV c table σ) := by
  classical
  unfold undoneProb entryProb
  rw [Finset.sum_comm]
  refine Finset.sum_congr rfl fun p _ => ?_
  rw [Finset.sum_eq_single (readsV (genV c) p.vec)]
  · simp only [true_and, undoes_one h hb hind hY table ht]
  · intro σ _ hσ
    rw [if_neg fun hh => hσ hh.1.symm]
  · intro hh
    exact absurd (Finset.mem_univ _) hh

theorem entryProb_nonneg (hq : ∀ p, 0 ≤ q p) (σ : Fin c.iter.length → ZMod 2) (r : BVec c.n) : 0 ≤ entryProb c q σ r := by
  unfold entryProb
  refine Finset.sum_nonneg fun p _ => ?_
  split_ifs
  exacts [hq p, le_rfl]

theorem reads_of_class (hc : ∀ i j, sympV (genV c i) (genV c j) = 0) {u v : BVec c.n}
    (h : u + v ∈ Submodule.span (ZMod 2) (Set.range (genV c))) : readsV (genV c) u = readsV (genV c) v := by
  have h2 := readsV_group hc h
  rw [readsV_add] at h2
  funext i
  have hz : ∀ a b : ZMod 2, a + b = 0 → a = b := by decide
  exact hz _ _ (congrFun h2 i)

/-- An entry with the right results undoes its class. -/
theorem entryProb_class (hc : ∀ i j, sympV (genV c i) (genV c j) = 0) (e : Pauli c.n) :
    entryProb c q (readsV (genV c) e.vec) e.vec = probOf q (SameClass c.iter) e := by
  classical
  unfold entryProb probOf
  refine Finset.sum_congr rfl fun p _ => ?_
  refine if_congr ?_ rfl rfl
  unfold SameClass
  rw [genV_span, add_comm e.vec]
  exact ⟨fun hh => hh.2, fun hh => ⟨reads_of_class hc hh, hh⟩⟩

/-- An entry with other results undoes nothing. -/
theorem entryProb_other (hc : ∀ i j, sympV (genV c i) (genV c j) = 0) {σ : Fin c.iter.length → ZMod 2} {r : BVec c.n}
    (h : readsV (genV c) r ≠ σ) : entryProb c q σ r = 0 := by
  unfold entryProb
  refine Finset.sum_eq_zero fun p _ => if_neg fun hh => h ?_
  rw [← hh.1, reads_of_class hc hh.2]

/-- The table with one entry replaced. -/
theorem entryProb_update (table : List (ZMod 2) → List ℤ) (σ : Fin c.iter.length → ZMod 2) (r : List ℤ) :
    ∑ τ, entryProb c q τ (tabV c (Function.update table (List.ofFn σ) r) τ) =
      ∑ τ, entryProb c q τ (tabV c table τ) - entryProb c q σ (tabV c table σ) + entryProb c q σ (rowPauli c.n r).vec := by
  classical
  have h1 : ∀ τ, entryProb c q τ (tabV c (Function.update table (List.ofFn σ) r) τ) = entryProb c q τ (tabV c table τ) +
      if τ = σ then entryProb c q σ (rowPauli c.n r).vec - entryProb c q σ (tabV c table σ) else 0 := by
    intro τ
    by_cases hτ : τ = σ
    · subst hτ
      simp [tabV]
    · have : List.ofFn τ ≠ List.ofFn σ := fun hh => hτ (List.ofFn_injective hh)
      simp [tabV, hτ, Function.update_of_ne this]
  rw [Finset.sum_congr rfl fun τ _ => h1 τ, Finset.sum_add_distrib, Finset.sum_ite_eq']
  simp only [Finset.mem_univ, if_true]
  ring

/-- A table is best iff each entry is best for its results. -/
theorem best_iff (h : stabInit s c.n k none = .ok c) (hb : BinaryArr c.stab) (hind : Independent c.n c.stab)
    (hY : ∀ a < c.stab.rows, parityY (rowPauli c.n (c.stab.row a)) = 0) (table : List (ZMod 2) → List ℤ) (ht : TableFor c.n table) :
    (∀ table', TableFor c.n table' → undoneProb c k q table' ≤ undoneProb c k q table) ↔
      ∀ σ r, entryProb c q σ r ≤ entryProb c q σ (tabV c table σ) := by
  classical
  constructor
  · intro hh σ r
    have ht' : TableFor c.n (Function.update table (List.ofFn σ) (pauliRow (ofVec r))) := by
      intro rs
      by_cases hrs : rs = List.ofFn σ
      · subst hrs
        rw [Function.update_self]
        exact ⟨(pauliRow_spec _).1, (pauliRow_spec _).2.1⟩
      · rw [Function.update_of_ne hrs]
        exact ht rs
    have h1 := hh _ ht'
    rw [undoneProb_sum h hb hind hY _ ht', undoneProb_sum h hb hind hY _ ht, entryProb_update, (pauliRow_spec _).2.2] at h1
    have h2 : (ofVec r).vec = r := rfl
    rw [h2] at h1
    linarith
  · intro hh table' ht'
    rw [undoneProb_sum h hb hind hY _ ht', undoneProb_sum h hb hind hY _ ht]
    exact Finset.sum_le_sum fun σ _ => hh σ _

open Classical in
/-- **C116**.  For an accepted code with independent generators, each with an even number of `Y`s, and Pauli errors that happen with
given probabilities: no table undoes the error with a greater probability than a given one if and only if, for every error, the errors
that differ from it by an operator of the group of the rows are together no more probable than the errors with the same results that
the table undoes. -/
theorem C116_best (h : stabInit s c.n k none = .ok c) (hb : BinaryArr c.stab) (hind : Independent c.n c.stab)
    (hY : ∀ a < c.stab.rows, parityY (rowPauli c.n (c.stab.row a)) = 0) (q : Pauli c.n → ℝ) (hq : ∀ p, 0 ≤ q p)
    (table : List (ZMod 2) → List ℤ) (ht : TableFor c.n table) :
    (∀ table', TableFor c.n table' → undoneProb c k q table' ≤ undoneProb c k q table) ↔
      ∀ e, probOf q (SameClass c.iter) e ≤ ∑ p, if SameSyndrome c.iter e p ∧ Undoes c k {pauliRow p} table then q p else 0 := by
  have hc := genV_comm h hb hind rfl
  rw [best_iff h hb hind hY table ht]
  have hR : ∀ e : Pauli c.n, (∑ p, if SameSyndrome c.iter e p ∧ Undoes c k {pauliRow p} table then q p else 0) =
      entryProb c q (readsV (genV c) e.vec) (tabV c table (readsV (genV c) e.vec)) := by
    intro e
    unfold entryProb
    refine Finset.sum_congr rfl fun p _ => if_congr ?_ rfl rfl
    rw [sameSyndrome_reads, undoes_one h hb hind hY table ht]
    constructor
    · rintro ⟨h1, h2⟩
      exact ⟨h1.symm, by rwa [h1]⟩
    · rintro ⟨h1, h2⟩
      exact ⟨h1.symm, by rwa [h1]⟩
  simp only [hR, ← entryProb_class hc]
  constructor
  · intro hh e
    exact hh _ _
  · intro hh σ r
    by_cases hr : readsV (genV c) r = σ
    · subst hr
      exact hh (ofVec r)
    · rw [entryProb_other hc hr]
      exact entryProb_nonneg hq _ _

/-- **C116**.  There is a best table, and it undoes the error with probability
`∑_σ max_{e with results σ} (probability of the errors that differ from e by an operator of the group)`. -/
theorem C116_exists (h : stabInit s c.n k none = .ok c) (hb : BinaryArr c.stab) (hind : Independent c.n c.stab)
    (hY : ∀ a < c.stab.rows, parityY (rowPauli c.n (c.stab.row a)) = 0) (q : Pauli c.n → ℝ) (hq : ∀ p, 0 ≤ q p) :
    ∃ table, TableFor c.n table ∧ (∀ table', TableFor c.n table' → undoneProb c k q table' ≤ undoneProb c k q table) ∧
      undoneProb c k q table = ∑ σ : Fin (c.n - k) → ZMod 2,
        ⨆ e : {e : Pauli c.n // c.iter.map (fun g => symp (rowPauli c.n g) e) = List.ofFn σ}, probOf q (SameClass c.iter) e.1 := by
  classical
  have hc := genV_comm h hb hind rfl
  have hlen : c.iter.length = c.n - k := by have := iter_length h hb hind; omega
  choose T hT using fun σ : Fin c.iter.length → ZMod 2 => Finite.exists_max fun r : BVec c.n => entryProb c q σ r
  let table : List (ZMod 2) → List ℤ := fun rs => pauliRow (ofVec (T fun i => rs.getD i 0))
  have ht : TableFor c.n table := fun rs => ⟨(pauliRow_spec _).1, (pauliRow_spec _).2.1⟩
  have htab : ∀ σ, tabV c table σ = T σ := by
    intro σ
    show (rowPauli c.n (pauliRow (ofVec (T fun i => (List.ofFn σ).getD i 0)))).vec = _
    rw [(pauliRow_spec _).2.2]
    show T _ = _
    congr 1
    funext i
    rw [List.getD_eq_getElem _ _ (by simp), List.getElem_ofFn]
  refine ⟨table, ht, (best_iff h hb hind hY table ht).mpr fun σ r => by rw [htab]; exact hT σ r, ?_⟩
  rw [undoneProb_sum h hb hind hY table ht]
  refine Fintype.sum_equiv (Equiv.arrowCongr (finCongr hlen) (Equiv.refl _)) _ _ fun σ => ?_
  have hof : List.ofFn ((Equiv.arrowCongr (finCongr hlen) (Equiv.refl (ZMod 2))) σ) = List.ofFn σ :=
    List.ext_getElem (by simp [hlen]) fun i _ _ => by simp
  rw [hof, htab]
  have hmem : ∀ e : Pauli c.n, c.iter.map (fun g => symp (rowPauli c.n g) e) = List.ofFn σ ↔ readsV (genV c) e.vec = σ := by
    intro e
    rw [genV_reads, List.ofFn_injective.eq_iff]
  have hval : ∀ e : {e : Pauli c.n // c.iter.map (fun g => symp (rowPauli c.n g) e) = List.ofFn σ},
      probOf q (SameClass c.iter) e.1 = entryProb c q σ e.1.vec := by
    rintro ⟨e, he⟩
    rw [← entryProb_class hc, (hmem e).mp he]
  obtain ⟨v, hv⟩ := readsV_surjective (genV_indep h hb hind) σ
  have hne : Nonempty {e : Pauli c.n // c.iter.map (fun g => symp (rowPauli c.n g) e) = List.ofFn σ} :=
    ⟨⟨ofVec v, (hmem _).mpr hv⟩⟩
  have hbdd : BddAbove (Set.range fun e : {e : Pauli c.n // c.iter.map (fun g => symp (rowPauli c.n g) e) = List.ofFn σ} =>
      probOf q (SameClass c.iter) e.1) := Set.finite_range _ |>.bddAbove
  refine le_antisymm ?_ (ciSup_le fun e => by rw [hval]; exact hT σ _)
  by_cases hr : readsV (genV c) (T σ) = σ
  · refine le_trans (le_of_eq ?_) (le_ciSup hbdd ⟨ofVec (T σ), (hmem _).mpr hr⟩)
    rw [hval]
    rfl
  · rw [entryProb_other hc hr]
    refine le_trans ?_ (le_ciSup hbdd ⟨ofVec v, (hmem _).mpr hv⟩)
    rw [hval]
    exact entryProb_nonneg hq _ _

end

theorem xx_code : ∃ c, stabInit (.rows [[1, 1, 0, 0]]) 2 1 none = .ok c ∧ BinaryArr c.stab ∧ Independent 2 c.stab ∧
    (∀ a < c.stab.rows, parityY (rowPauli 2 (c.stab.row a)) = 0) ∧ c.iter = [[1, 1, 0, 0]] := by
  obtain ⟨c, h1, h2, h3, h4, -, h6⟩ := concrete_code (l := [[1, 1, 0, 0]]) (n := 2) (k := 1)
    (r := 1) (e := 0) (by decide) (by decide) (by decide) (by unfold IsBinary; decide) (by decide)
    (independent_cert _ (fun j a => if (j, a) ∈ [(0, 0)] then 1 else 0) (by decide))
    (fun F _ => rank_cert (M := Matrix.of fun (i : Fin 1) (j : Fin 2) => (Arr.ofRows (2 * 2) [[1, 1, 0, 0]]).get i j)
      1 (Matrix.of fun (i : Fin 1) (j : Fin 2) => (Arr.ofRows (2 * 2) [[1, 1, 0, 0]]).get i j)
      !![1] !![1; 0] (by simp) (by decide) F) (Or.inl rfl)
  rw [if_pos (by decide)] at h6
  refine ⟨c, h1, h2, h3, ?_⟩
  unfold StabCode.iter
  rw [h4, h6]
  exact ⟨by decide, by decide⟩

/-- Ten times the probabilities of no error, 2/5, and X on one of the qubits, 3/10 each. -/
def xNoise10 {n : ℕ} (p : Pauli n) : ℕ :=
  if p.z = 0 then if weight p = 0 then 4 else if weight p = 1 then 3 else 0 else 0

/-- No error with probability 2/5, X on one of the qubits with probability 3/10 each. -/
noncomputable def xNoise {n : ℕ} (p : Pauli n) : ℝ := xNoise10 p / 10

/-- Leave the state alone, except after the result one: then apply Z to the first qubit. -/
def likelyTable : List (ZMod 2) → List ℤ := fun rs => if rs = [1] then [0, 0, 1, 0] else [0, 0, 0, 0]

theorem xNoise_sum {n : ℕ} (hn : n = 2) : (∑ p : Pauli n, xNoise p) = 1 := by
  subst hn
  have h1 : ∑ v : BVec 2, xNoise10 (ofVec v) = 10 := by decide +kernel
  have h2 : ∑ p : Pauli 2, xNoise10 p = 10 := by
    rw [← h1]
    exact Fintype.sum_equiv ⟨Pauli.vec, ofVec, fun _ => rfl, fun _ => rfl⟩ _ _ fun p => rfl
  unfold xNoise
  rw [← Finset.sum_div, ← Nat.cast_sum, h2]
  norm_num

theorem likely_entries {n : ℕ} (hn : n = 2) (p : Pauli n) :
    let e := rowPauli n (likelyTable (([[1, 1, 0, 0]] : List (List ℤ)).map fun g => symp (rowPauli n g) p))
    SameSyndrome [[1, 1, 0, 0]] p e ∧ xNoise p ≤ xNoise e := by
  subst hn
  have h : ∀ v : BVec 2, (∀ g ∈ ([[1, 1, 0, 0]] : List (List ℤ)), symp (rowPauli 2 g) (ofVec v) =
      symp (rowPauli 2 g) (rowPauli 2 (likelyTable (([[1, 1, 0, 0]] : List (List ℤ)).map fun g => symp (rowPauli 2 g) (ofVec v))))) ∧
      xNoise10 (ofVec v) ≤
        xNoise10 (rowPauli 2 (likelyTable (([[1, 1, 0, 0]] : List (List ℤ)).map fun g => symp (rowPauli 2 g) (ofVec v)))) := by
    decide +kernel
  refine ⟨(h p.vec).1, ?_⟩
  unfold xNoise
  exact div_le_div_of_nonneg_right (Nat.cast_le.mpr (h p.vec).2) (by norm_num)

theorem xx_group (v : BVec 2) : v ∈ groupOf 2 [[1, 1, 0, 0]] ↔ v = 0 ∨ v = (![1, 1], ![0, 0]) := by
  have h : groupOf 2 [[1, 1, 0, 0]] = Submodule.span (ZMod 2) {((![1, 1], ![0, 0]) : BVec 2)} := by
    unfold groupOf
    congr 1
    ext v
    have h1 : (rowPauli 2 [1, 1, 0, 0]).vec = (![1, 1], ![0, 0]) := by decide
    simp only [List.mem_singleton]
    constructor
    · rintro ⟨g, rfl, rfl⟩; exact h1
    · rintro rfl; exact ⟨_, rfl, h1.symm⟩
  rw [h, Submodule.mem_span_singleton]
  constructor
  · rintro ⟨a, rfl⟩
    have ha : a = 0 ∨ a = 1 := by revert a; decide
    rcases ha with rfl | rfl
    · exact Or.inl (zero_smul _ _)
    · exact Or.inr (one_smul _ _)
  · rintro (rfl | rfl)
    · exact ⟨0, zero_smul _ _⟩
    · exact ⟨1, one_smul _ _⟩

open Classical in
/-- The errors X are together more probable than what the table undoes with the same result. -/
theorem likely_less {n : ℕ} (hn : n = 2) (U : Pauli n → Prop)
    (hU : ∀ p, U p → p.vec + (rowPauli n (likelyTable (([[1, 1, 0, 0]] : List (List ℤ)).map fun g => symp (rowPauli n g) p))).vec ∈
      groupOf n [[1, 1, 0, 0]]) :
    ∃ e : Pauli n, (∑ p, if SameSyndrome [[1, 1, 0, 0]] e p ∧ U p then xNoise p else 0) <
      probOf xNoise (SameClass [[1, 1, 0, 0]]) e := by
  subst hn
  have hx : ∀ p : Pauli 2, 0 ≤ xNoise p := fun p => by unfold xNoise; positivity
  refine ⟨⟨![1, 0], 0⟩, ?_⟩
  have h1 : (∑ p : Pauli 2, if SameSyndrome [[1, 1, 0, 0]] ⟨![1, 0], 0⟩ p ∧ U p then xNoise p else 0) ≤
      ∑ p : Pauli 2, if p = ⟨0, 0⟩ then 4 / 10 else 0 := by
    refine Finset.sum_le_sum fun p _ => ?_
    by_cases hp : SameSyndrome [[1, 1, 0, 0]] ⟨![1, 0], 0⟩ p ∧ U p
    · rw [if_pos hp]
      have h2 := hU p hp.2
      have h3 : symp (rowPauli 2 [1, 1, 0, 0]) p = 0 := by
        rw [← hp.1 [1, 1, 0, 0] (by simp)]; decide
      have h4 : (rowPauli 2 (likelyTable [0])).vec = 0 := by decide
      rw [List.map_singleton, h3, h4, add_zero, xx_group] at h2
      rcases h2 with h2 | h2
      · have hp0 : p = ⟨0, 0⟩ := by
          obtain ⟨a, b⟩ := p
          obtain ⟨rfl, rfl⟩ := Prod.mk.inj h2
          rfl
        subst hp0
        rw [if_pos rfl]
        unfold xNoise
        rw [show xNoise10 (⟨0, 0⟩ : Pauli 2) = 4 by decide]
        norm_num
      · have hp0 : p = ⟨![1, 1], ![0, 0]⟩ := by
          obtain ⟨a, b⟩ := p
          obtain ⟨rfl, rfl⟩ := Prod.mk.inj h2
          rfl
        subst hp0
        unfold xNoise
        rw [show xNoise10 (⟨![1, 1], ![0, 0]⟩ : Pauli 2) = 0 by decide]
        split_ifs <;> norm_num
    · rw [if_neg hp]
      split_ifs <;> norm_num
  rw [Finset.sum_ite_eq'] at h1
  simp only [Finset.mem_univ, if_true] at h1
  have hne : (⟨![1, 0], 0⟩ : Pauli 2) ≠ ⟨![0, 1], 0⟩ := by
    intro hh
    have := congrFun (congrArg Pauli.x hh) 0
    exact absurd this (by decide)
  have h5 : (6 / 10 : ℝ) ≤ probOf xNoise (SameClass [[1, 1, 0, 0]]) (⟨![1, 0], 0⟩ : Pauli 2) := by
    unfold probOf
    refine le_trans (le_of_eq ?_) (Finset.sum_le_sum_of_subset_of_nonneg
      (Finset.subset_univ ({⟨![1, 0], 0⟩, ⟨![0, 1], 0⟩} : Finset (Pauli 2))) fun p _ _ => ?_)
    · have c1 : SameClass [[1, 1, 0, 0]] (⟨![1, 0], 0⟩ : Pauli 2) ⟨![1, 0], 0⟩ := (xx_group _).mpr (by decide)
      have c2 : SameClass [[1, 1, 0, 0]] (⟨![1, 0], 0⟩ : Pauli 2) ⟨![0, 1], 0⟩ := (xx_group _).mpr (by decide)
      rw [Finset.sum_pair hne, if_pos c1, if_pos c2]
      unfold xNoise
      rw [show xNoise10 (⟨![1, 0], 0⟩ : Pauli 2) = 3 by decide, show xNoise10 (⟨![0, 1], 0⟩ : Pauli 2) = 3 by decide]
      norm_num
    · split_ifs
      exacts [hx p, le_rfl]
  linarith

/-- **C116**, an instance.  For the code of XX and the errors X on one of the two qubits with probability 3/10 each, the table that
holds for every result the most probable error with that result is not best (to apply X to the first qubit undoes both errors). -/
theorem C116_likely : ∃ c, c.n = 2 ∧ stabInit (.rows [[1, 1, 0, 0]]) c.n 1 none = .ok c ∧ TableFor c.n likelyTable ∧
    (∑ p : Pauli c.n, xNoise p) = 1 ∧
    (∀ p : Pauli c.n, let e := rowPauli c.n (likelyTable (c.iter.map fun g => symp (rowPauli c.n g) p))
      SameSyndrome c.iter p e ∧ xNoise p ≤ xNoise e) ∧
    ∃ table, TableFor c.n table ∧ undoneProb c 1 xNoise likelyTable < undoneProb c 1 xNoise table := by
  classical
  obtain ⟨c, h1, h2, h3, h4, h5⟩ := xx_code
  have hn : c.n = 2 := (accepted_facts h1 h2 h3).1
  have ht : TableFor c.n likelyTable := by
    rw [hn]
    intro rs
    unfold likelyTable
    split_ifs
    · exact ⟨by decide, by unfold IsBinary; decide⟩
    · exact ⟨by decide, by unfold IsBinary; decide⟩
  have g1 : stabInit (.rows [[1, 1, 0, 0]]) c.n 1 none = .ok c := by rw [hn]; exact h1
  have g3 : Independent c.n c.stab := by rw [hn]; exact h3
  have g4 : ∀ a < c.stab.rows, parityY (rowPauli c.n (c.stab.row a)) = 0 := by rw [hn]; exact h4
  refine ⟨c, hn, g1, ht, xNoise_sum hn, fun p => by rw [h5]; exact likely_entries hn p, ?_⟩
  by_contra hno
  push Not at hno
  have hbest := (C116_best g1 h2 g3 g4 xNoise (fun p => by unfold xNoise; positivity) likelyTable ht).mp hno
  obtain ⟨e, he⟩ := likely_less hn (fun p => Undoes c 1 {pauliRow p} likelyTable) fun p hp => by
    have := (C115_table g1 h2 g3 g4 likelyTable ht _).mp hp _ rfl
    rwa [(pauliRow_spec p).2.2, h5] at this
  rw [h5] at hbest
  exact absurd (hbest e) (not_le.mpr he)

end PyQ
