import Verif.Props.Digitise
import Verif.Spec.CodeInfo
import Verif.Lemmas.Counting

/-! # C115: how many errors the measurements tell apart and how many a table of corrections undoes -/

namespace PyQ

open Spec Module

/-- The measurements of all rows of the normal form tell the errors of a set apart: encoding the same superposition, no list of
results is possible both after one and after another of the errors. -/
def TellsApart (c : StabCode) (k : ℕ) (E : Set (Pauli c.n)) : Prop :=
  ∃ enc : (Fin k → ZMod 2) → List Gate, (∀ δ, encodingCircuit c c.n (bitsList δ) = .ok (enc δ)) ∧
    ∀ e ∈ E, ∀ e' ∈ E, e ≠ e' → ∀ α : (Fin k → ZMod 2) → ℂ, Normalised α → ∀ rs φ φ',
      ¬ (History (FreshStep c) (pauliAct e (∑ δ, α δ • run (enc δ) (ket 0))) (c.iter.map StabArg.bin) rs φ ∧
        History (FreshStep c) (pauliAct e' (∑ δ, α δ • run (enc δ) (ket 0))) (c.iter.map StabArg.bin) rs φ')

/-- Every entry of the table is a binary row for `n` qubits. -/
def TableFor (n : ℕ) (table : List (ZMod 2) → List ℤ) : Prop := ∀ rs, (table rs).length = 2 * n ∧ IsBinary (table rs)

section

variable {s : StabInput} {k : ℕ} {c : StabCode}

/-- **C115**.  For an accepted code with independent generators, each with an even number of `Y`s: a given table undoes every error
of a set exactly when each error of the set differs from the entry for its results by an operator of the group the rows generate. -/
theorem C115_table (h : stabInit s c.n k none = .ok c) (hb : BinaryArr c.stab) (hind : Independent c.n c.stab)
    (hY : ∀ a < c.stab.rows, parityY (rowPauli c.n (c.stab.row a)) = 0)
    (table : List (ZMod 2) → List ℤ) (ht : TableFor c.n table) (E : Set (List ℤ)) :
    Undoes c k E table ↔ ∀ e ∈ E,
      (rowPauli c.n e).vec + (rowPauli c.n (table (c.iter.map fun g => symp (rowPauli c.n g) (rowPauli c.n e)))).vec ∈
        groupOf c.n c.iter := by
  obtain ⟨enc, e1, e2, e3⟩ := encoded_family h hb hind
  have uniq : ∀ {enc' : (Fin k → ZMod 2) → List Gate}, (∀ δ, encodingCircuit c c.n (bitsList δ) = .ok (enc' δ)) → enc' = enc := by
    intro enc' h'
    funext δ
    have h1 := h' δ
    rw [e1] at h1
    exact (Except.ok.inj h1).symm
  have hmeas : ∀ (e : Pauli c.n) (α : (Fin k → ZMod 2) → ℂ), Normalised α → ∀ rs φ',
      History (FreshStep c) (pauliAct e (∑ δ, α δ • run (enc δ) (ket 0))) (c.iter.map StabArg.bin) rs φ' ↔
        rs = c.iter.map (fun g => symp (rowPauli c.n g) e) ∧ φ' = pauliAct e (∑ δ, α δ • run (enc δ) (ket 0)) := by
    intro e α hα
    obtain ⟨enc', f1, f2⟩ := C62_syndrome s k c h hb hind hY e α hα
    obtain rfl := uniq f1
    exact f2
  constructor
  · rintro ⟨enc', dec, f1, f2, f3⟩ a ha
    obtain rfl := uniq f1
    obtain ⟨enc'', corr, dec', g1, g2, -, g4, -⟩ := C61_correction s c.n k c h hb hind hY a _ (ht _).1 (ht _).2
    obtain rfl := uniq g1
    obtain ⟨ω, -, hω⟩ := f3 a ha
    refine g4.mp ⟨ω, ?_⟩
    refine normalised_all (f := fun α => run corr (pauliAct (rowPauli c.n a) (∑ δ, α δ • (run (enc'' δ) (ket 0) : Amp c.n))))
      (g := fun α => ω • ∑ δ, α δ • (run (enc'' δ) (ket 0) : Amp c.n)) ?_ ?_ ?_
    · intro z α
      simp only [Pi.smul_apply, smul_assoc, ← Finset.smul_sum, pauliAct_smul, run_smul]
    · intro z α
      simp only [Pi.smul_apply, smul_assoc, ← Finset.smul_sum]
      rw [smul_comm]
    · intro α hα
      obtain ⟨corr', i1, i2, -⟩ := hω α hα _ _ ((hmeas _ α hα _ _).mpr ⟨rfl, rfl⟩)
      rw [g2] at i1
      cases i1
      exact i2
  · intro hcond
    obtain ⟨enc0, corr0, dec, g1, -, g3, -, -⟩ := C61_correction s c.n k c h hb hind hY (table []) (table []) (ht _).1 (ht _).2
    obtain rfl := uniq g1
    refine ⟨enc0, dec, e1, g3, ?_⟩
    intro e he
    obtain ⟨enc', corr, dec', i1, i2, i3, i4, i5⟩ := C61_correction s c.n k c h hb hind hY e _ (ht _).1 (ht _).2
    obtain rfl := uniq i1
    rw [g3] at i3
    cases i3
    obtain ⟨ω, hω⟩ := i4.mpr (hcond e he)
    obtain ⟨j1, j2⟩ := i5 ω hω
    refine ⟨ω, j1, ?_⟩
    intro α hα rs φ hh
    obtain ⟨rfl, rfl⟩ := (hmeas _ α hα _ _).mp hh
    exact ⟨corr, i2, hω α, j2 α⟩

/-- The rows of the normal form as a family of vectors. -/
def genV (c : StabCode) : Fin c.iter.length → BVec c.n := fun i => (rowPauli c.n (c.iter.get i)).vec

theorem iter_length {n : ℕ} (h : stabInit s n k none = .ok c) (hb : BinaryArr c.stab) (hind : Independent n c.stab) :
    c.iter.length + k = n := by
  obtain ⟨hm, -⟩ := accepted_families h hb hind
  simpa [StabCode.iter] using hm

theorem genV_span (c : StabCode) : groupOf c.n c.iter = Submodule.span (ZMod 2) (Set.range (genV c)) := by
  unfold groupOf genV
  congr 1
  ext v
  simp only [Set.mem_setOf_eq, Set.mem_range]
  constructor
  · rintro ⟨g, hg, rfl⟩
    obtain ⟨i, rfl⟩ := List.get_of_mem hg
    exact ⟨i, rfl⟩
  · rintro ⟨i, rfl⟩
    exact ⟨_, List.get_mem _ _, rfl⟩

theorem genV_reads (c : StabCode) (p : Pauli c.n) :
    c.iter.map (fun g => symp (rowPauli c.n g) p) = List.ofFn (readsV (genV c) p.vec) := by
  refine List.ext_getElem (by simp) fun i h1 h2 => ?_
  simp [readsV, genV, sympV_vec]

theorem genV_comm {n : ℕ} (h : stabInit s n k none = .ok c) (hb : BinaryArr c.stab) (hind : Independent n c.stab) (hn : c.n = n)
    (i j : Fin c.iter.length) : sympV (genV c i) (genV c j) = 0 := by
  subst hn
  obtain ⟨-, -, -, hcom, -⟩ := accepted_families h hb hind
  obtain ⟨a, ha, ha'⟩ := iter_mem.mp (List.get_mem c.iter i)
  obtain ⟨b, hb, hb'⟩ := iter_mem.mp (List.get_mem c.iter j)
  unfold genV
  rw [sympV_vec, ← ha', ← hb']
  exact hcom a ha b hb

theorem genV_indep (h : stabInit s c.n k none = .ok c) (hb : BinaryArr c.stab) (hind : Independent c.n c.stab) :
    LinearIndependent (ZMod 2) (genV c) := by
  obtain ⟨-, -, hli, -, -⟩ := accepted_families h hb hind
  have hl : c.iter.length = c.normalForm.rows := by simp [StabCode.iter]
  have he : genV c = (fun i : Fin c.normalForm.rows => (rowPauli c.n (c.normalForm.row i)).vec) ∘ Fin.cast hl := by
    funext i
    show (rowPauli c.n (c.iter.get i)).vec = (rowPauli c.n (c.normalForm.row i)).vec
    congr 2
    rw [List.get_eq_getElem]
    unfold StabCode.iter
    rw [List.getElem_map, List.getElem_range]
  rw [he]
  exact hli.comp _ (Fin.cast_injective hl)

theorem genV_rank (h : stabInit s c.n k none = .ok c) (hb : BinaryArr c.stab) (hind : Independent c.n c.stab) :
    finrank (ZMod 2) (Submodule.span (ZMod 2) (Set.range (genV c))) = c.n - k := by
  rw [finrank_span_eq_card (genV_indep h hb hind), Fintype.card_fin]
  have := iter_length h hb hind
  omega

/-- The table as a function of results of the right number. -/
def tabV (c : StabCode) (table : List (ZMod 2) → List ℤ) (σ : Fin c.iter.length → ZMod 2) : BVec c.n :=
  (rowPauli c.n (table (List.ofFn σ))).vec

/-- Undoing one error, in vectors. -/
theorem undoes_one (h : stabInit s c.n k none = .ok c) (hb : BinaryArr c.stab) (hind : Independent c.n c.stab)
    (hY : ∀ a < c.stab.rows, parityY (rowPauli c.n (c.stab.row a)) = 0)
    (table : List (ZMod 2) → List ℤ) (ht : TableFor c.n table) (p : Pauli c.n) :
    Undoes c k {pauliRow p} table ↔
      p.vec + tabV c table (readsV (genV c) p.vec) ∈ Submodule.span (ZMod 2) (Set.range (genV c)) := by
  rw [C115_table h hb hind hY table ht, ← genV_span]
  simp only [Set.mem_singleton_iff, forall_eq, (pauliRow_spec p).2.2, genV_reads]
  rfl

/-- **C115**.  A table undoes at most `4^(n-k)` Pauli errors, and exactly so many if and only if the entry for every list of results
has these results itself. -/
theorem C115_number (h : stabInit s c.n k none = .ok c) (hb : BinaryArr c.stab) (hind : Independent c.n c.stab)
    (hY : ∀ a < c.stab.rows, parityY (rowPauli c.n (c.stab.row a)) = 0)
    (table : List (ZMod 2) → List ℤ) (ht : TableFor c.n table) :
    {p : Pauli c.n | Undoes c k {pauliRow p} table}.ncard ≤ 4 ^ (c.n - k) ∧
    ({p : Pauli c.n | Undoes c k {pauliRow p} table}.ncard = 4 ^ (c.n - k) ↔
      ∀ rs : List (ZMod 2), rs.length = c.n - k →
        c.iter.map (fun g => symp (rowPauli c.n g) (rowPauli c.n (table rs))) = rs) := by
  have hlen : c.iter.length = c.n - k := by have := iter_length h hb hind; omega
  have h1 : {p : Pauli c.n | Undoes c k {pauliRow p} table}.ncard =
      {v : BVec c.n | v + tabV c table (readsV (genV c) v) ∈ Submodule.span (ZMod 2) (Set.range (genV c))}.ncard := by
    have hinj : Function.Injective (Pauli.vec (n := c.n)) := by
      rintro ⟨a, b⟩ ⟨a', b'⟩ hab
      obtain ⟨rfl, rfl⟩ := Prod.mk.inj hab
      rfl
    rw [← Set.ncard_image_of_injective _ hinj]
    congr 1
    ext v
    simp only [Set.mem_image, Set.mem_ofPred_eq, undoes_one h hb hind hY table ht]
    constructor
    · rintro ⟨p, hp, rfl⟩; exact hp
    · intro hv; exact ⟨ofVec v, hv, rfl⟩
  have hcard : Nat.card (Fin c.iter.length → ZMod 2) = 2 ^ (c.n - k) := by simp [hlen]
  rw [h1, undone_card (genV_comm h hb hind rfl), genV_rank h hb hind, show (4 : ℕ) = 2 * 2 from rfl, mul_pow]
  have hle : {σ : Fin c.iter.length → ZMod 2 | readsV (genV c) (tabV c table σ) = σ}.ncard ≤ 2 ^ (c.n - k) := by
    rw [← hcard, ← Set.ncard_univ]
    exact Set.ncard_le_ncard (Set.subset_univ _)
  refine ⟨Nat.mul_le_mul_right _ hle, ?_⟩
  rw [Nat.mul_left_inj (by positivity), ← hcard, ← Set.ncard_univ]
  have h2 : {σ : Fin c.iter.length → ZMod 2 | readsV (genV c) (tabV c table σ) = σ}.ncard =
      (Set.univ : Set (Fin c.iter.length → ZMod 2)).ncard ↔ ∀ σ, readsV (genV c) (tabV c table σ) = σ := by
    constructor
    · intro hh σ
      have := Set.eq_of_subset_of_ncard_le (Set.subset_univ _) hh.ge
      exact (Set.eq_univ_iff_forall.mp this) σ
    · intro hh
      congr 1
      exact Set.eq_univ_iff_forall.mpr hh
  rw [h2]
  constructor
  · intro hh rs hrs
    obtain ⟨σ, rfl⟩ : ∃ σ : Fin c.iter.length → ZMod 2, List.ofFn σ = rs :=
      ⟨fun i => rs.get (i.cast (by omega)), List.ext_getElem (by simp; omega) fun i _ _ => by simp⟩
    rw [genV_reads]
    exact congrArg List.ofFn (hh σ)
  · intro hh σ
    have := hh (List.ofFn σ) (by simp [hlen])
    rw [genV_reads] at this
    exact List.ofFn_injective this

/-- **C115**.  Some table undoes `4^(n-k)` errors. -/
theorem C115_full_table (h : stabInit s c.n k none = .ok c) (hb : BinaryArr c.stab) (hind : Independent c.n c.stab)
    (hY : ∀ a < c.stab.rows, parityY (rowPauli c.n (c.stab.row a)) = 0) :
    ∃ table, TableFor c.n table ∧ {p : Pauli c.n | Undoes c k {pauliRow p} table}.ncard = 4 ^ (c.n - k) := by
  have hlen : c.iter.length = c.n - k := by have := iter_length h hb hind; omega
  choose T hT using readsV_surjective (genV_indep h hb hind)
  let table : List (ZMod 2) → List ℤ := fun rs => pauliRow (ofVec (T fun i => rs.getD i 0))
  have ht : TableFor c.n table := fun rs => ⟨(pauliRow_spec _).1, (pauliRow_spec _).2.1⟩
  refine ⟨table, ht, (C115_number h hb hind hY table ht).2.mpr fun rs hrs => ?_⟩
  rw [genV_reads, (pauliRow_spec _).2.2]
  show List.ofFn (readsV (genV c) (T fun i => rs.getD i 0)) = rs
  rw [hT]
  refine List.ext_getElem (by simp; omega) fun i h1 h2 => ?_
  rw [List.getElem_ofFn, List.getD_eq_getElem]

/-- **C115**.  Errors that the measurements tell apart are no more than `2^(n-k)`. -/
theorem C115_apart (h : stabInit s c.n k none = .ok c) (hb : BinaryArr c.stab) (hind : Independent c.n c.stab)
    (hY : ∀ a < c.stab.rows, parityY (rowPauli c.n (c.stab.row a)) = 0) (E : Set (Pauli c.n)) :
    (TellsApart c k E ↔ ∀ e ∈ E, ∀ e' ∈ E, SameSyndrome c.iter e e' → e = e') ∧ (TellsApart c k E → E.ncard ≤ 2 ^ (c.n - k)) := by
  obtain ⟨enc, e1, e2, e3⟩ := encoded_family h hb hind
  have uniq : ∀ {enc' : (Fin k → ZMod 2) → List Gate}, (∀ δ, encodingCircuit c c.n (bitsList δ) = .ok (enc' δ)) → enc' = enc := by
    intro enc' h'
    funext δ
    have h1 := h' δ
    rw [e1] at h1
    exact (Except.ok.inj h1).symm
  have hmeas : ∀ (e : Pauli c.n) (α : (Fin k → ZMod 2) → ℂ), Normalised α → ∀ rs φ',
      History (FreshStep c) (pauliAct e (∑ δ, α δ • run (enc δ) (ket 0))) (c.iter.map StabArg.bin) rs φ' ↔
        rs = c.iter.map (fun g => symp (rowPauli c.n g) e) ∧ φ' = pauliAct e (∑ δ, α δ • run (enc δ) (ket 0)) := by
    intro e α hα
    obtain ⟨enc', f1, f2⟩ := C62_syndrome s k c h hb hind hY e α hα
    obtain rfl := uniq f1
    exact f2
  have hα0 : Normalised (fun δ : Fin k → ZMod 2 => if δ = 0 then (1 : ℂ) else 0) := by
    show ∑ b, Complex.normSq _ = 1
    rw [Finset.sum_eq_single 0] <;> simp +contextual
  have key : TellsApart c k E ↔ ∀ e ∈ E, ∀ e' ∈ E, SameSyndrome c.iter e e' → e = e' := by
    constructor
    · rintro ⟨enc', f1, f2⟩ e he e' he' hs
      obtain rfl := uniq f1
      by_contra hne
      refine f2 e he e' he' hne _ hα0 _ _ _ ⟨(hmeas e _ hα0 _ _).mpr ⟨rfl, rfl⟩, (hmeas e' _ hα0 _ _).mpr ⟨?_, rfl⟩⟩
      exact List.map_inj_left.mpr fun g hg => hs g hg
    · intro hh
      refine ⟨enc, e1, fun e he e' he' hne α hα rs φ φ' hhist => hne (hh e he e' he' fun g hg => ?_)⟩
      have r1 := ((hmeas e α hα _ _).mp hhist.1).1
      have r2 := ((hmeas e' α hα _ _).mp hhist.2).1
      exact List.map_inj_left.mp (r1.symm.trans r2) g hg
  refine ⟨key, fun hE => ?_⟩
  have hinj : Function.Injective (Pauli.vec (n := c.n)) := by
    rintro ⟨a, b⟩ ⟨a', b'⟩ hab
    obtain ⟨rfl, rfl⟩ := Prod.mk.inj hab
    rfl
  have hlen : c.iter.length = c.n - k := by have := iter_length h hb hind; omega
  rw [← Set.ncard_image_of_injective _ hinj, ← hlen]
  refine apart_card (g := genV c) ?_
  rintro _ ⟨e, he, rfl⟩ _ ⟨e', he', rfl⟩ hr
  rw [key.mp hE e he e' he' ?_]
  intro g hg
  obtain ⟨i, rfl⟩ := List.get_of_mem hg
  have := congrFun hr i
  simpa [readsV, genV, sympV_vec] using this

/-- **C115**, the quantum Hamming bound.  If the measurements tell all errors on at most `t` qubits apart, then
`∑_{j ≤ t} C(n, j) 3^j ≤ 2^(n-k)`. -/
theorem C115_hamming (h : stabInit s c.n k none = .ok c) (hb : BinaryArr c.stab) (hind : Independent c.n c.stab)
    (hY : ∀ a < c.stab.rows, parityY (rowPauli c.n (c.stab.row a)) = 0) (t : ℕ)
    (hE : TellsApart c k {e | weight e ≤ t}) : ∑ j ∈ Finset.range (t + 1), c.n.choose j * 3 ^ j ≤ 2 ^ (c.n - k) := by
  rw [← weight_card]
  exact (C115_apart h hb hind hY _).2 hE

/-- **C115**, an instance: the code of XZZXI, IXZZX, XIXZZ and ZXIXZ tells all errors on at most one qubit apart and meets the bound
with equality. -/
theorem C115_five_qubits : ∃ c, stabInit (.rows fiveRows) c.n 1 none = .ok c ∧ c.n = 5 ∧ TellsApart c 1 {e | weight e ≤ 1} ∧
    ∑ j ∈ Finset.range (1 + 1), c.n.choose j * 3 ^ j = 2 ^ (c.n - 1) := by
  obtain ⟨c, h1, h2, h3, h4, h5⟩ := five_code
  have hn : c.n = 5 := (accepted_facts h1 h2 h3).1
  refine ⟨c, by rw [hn]; exact h1, hn, ?_, by rw [hn]; decide⟩
  refine (C115_apart (s := .rows fiveRows) (by rw [hn]; exact h1) h2 (by rw [hn]; exact h3) (by rw [hn]; exact h4) _).1.mpr ?_
  rw [hn]
  intro e he e' he' hs
  have hv : (ofVec (e.vec + e'.vec)).vec = e.vec + e'.vec := rfl
  have h0 := five_trivial h5 (ofVec (e.vec + e'.vec)) ((weight_add _ _ _ hv).trans (Nat.add_le_add he he')) fun g hg => by
    rw [← sympV_vec, hv, sympV_add_right, sympV_vec, sympV_vec, hs g hg]
    exact CharTwo.add_self_eq_zero _
  rw [hv] at h0
  have h6 : e.vec = e'.vec := by
    have h7 := congrArg (· + e'.vec) h0
    simpa [add_assoc, bvec_add_self] using h7
  rcases e with ⟨a, b⟩
  rcases e' with ⟨a', b'⟩
  obtain ⟨rfl, rfl⟩ := Prod.mk.inj h6
  rfl

end

end PyQ
