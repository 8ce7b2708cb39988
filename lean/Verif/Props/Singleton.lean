import Verif.Props.Detect
import Verif.Lemmas.Singleton

/-! # C101: how much noise a code can stand -/

namespace PyQ

open Spec Module

theorem iter_rank {s : StabInput} {n k : ℕ} {c : StabCode} (h : stabInit s n k none = .ok c)
    (hb : BinaryArr c.stab) (hind : Independent n c.stab) : finrank (ZMod 2) (groupOf n c.iter) + k = n := by
  obtain ⟨hm, -, hli, -, hg⟩ := accepted_families h hb hind
  rw [hg, finrank_span_eq_card hli, Fintype.card_fin]
  exact hm

/-- Orthogonal to the group: commutes with the rows. -/
theorem supported_group {n : ℕ} {rows : List (List ℤ)} {T : Finset (Fin n)}
    (h : ∀ p : Pauli n, SupportedOn T p → (∀ g ∈ rows, symp (rowPauli n g) p = 0) → p.vec ∈ groupOf n rows) :
    ∀ v ∈ supported T, (∀ s ∈ groupOf n rows, sympV s v = 0) → v ∈ groupOf n rows := by
  intro v hv hs
  have h1 : (ofVec v).vec = v := rfl
  rw [← h1]
  refine h (ofVec v) (fun j hj => hv j hj) fun g hg => ?_
  rw [← sympV_vec, h1]
  exact hs _ (Submodule.subset_span ⟨g, hg, rfl⟩)

/-- Two disjoint sets of qubits on which every operator that commutes with the rows is in the group. -/
theorem disjoint_bound {s : StabInput} {n k : ℕ} {c : StabCode} (h : stabInit s n k none = .ok c)
    (hb : BinaryArr c.stab) (hind : Independent n c.stab) (A B : Finset (Fin n)) (hAB : Disjoint A B)
    (hA : ∀ p : Pauli n, SupportedOn A p → (∀ g ∈ c.iter, symp (rowPauli n g) p = 0) → p.vec ∈ groupOf n c.iter)
    (hB : ∀ p : Pauli n, SupportedOn B p → (∀ g ∈ c.iter, symp (rowPauli n g) p = 0) → p.vec ∈ groupOf n c.iter) :
    k + A.card + B.card ≤ n := by
  have h1 := correctable_disjoint A B hAB (groupOf n c.iter) (supported_group hA) (supported_group hB)
  have h2 := iter_rank h hb hind
  omega

theorem singleton_of {s : StabInput} {n k : ℕ} {c : StabCode} (h : stabInit s n k none = .ok c)
    (hb : BinaryArr c.stab) (hind : Independent n c.stab) (hk : 1 ≤ k) (m : ℕ)
    (hall : ∀ T : Finset (Fin n), T.card ≤ m →
      ∀ p : Pauli n, SupportedOn T p → (∀ g ∈ c.iter, symp (rowPauli n g) p = 0) → p.vec ∈ groupOf n c.iter) : k + 2 * m ≤ n := by
  classical
  obtain ⟨A, -, hA⟩ := Finset.exists_subset_card_eq (s := (Finset.univ : Finset (Fin n))) (n := min m n) (by simp)
  obtain ⟨B, hB, hB'⟩ := Finset.exists_subset_card_eq (s := Aᶜ) (n := min m (n - min m n)) (by
    rw [Finset.card_compl, Fintype.card_fin, hA]; exact min_le_right _ _)
  have h1 := disjoint_bound h hb hind A B (Finset.disjoint_left.mpr fun x hx hx' => Finset.mem_compl.mp (hB hx') hx)
    (hall A (by omega)) (hall B (by omega))
  omega

/-- **C101**.  For an accepted code with independent generators that encodes at least one qubit: if every Pauli operator on fewer than
`d` qubits that commutes with all rows of the normal form is a product of them, then `k + 2 (d - 1) ≤ n`. -/
theorem C101_singleton (s : StabInput) (n k : ℕ) (c : StabCode) (h : stabInit s n k none = .ok c)
    (hb : BinaryArr c.stab) (hind : Independent n c.stab) (hk : 1 ≤ k) (d : ℕ) (hd : 1 ≤ d) (hD : DistanceAtLeast n c.iter d) :
    k + 2 * (d - 1) ≤ n := by
  refine singleton_of h hb hind hk (d - 1) fun T hT p hp hcom => ?_
  by_contra hno
  have := hD p hcom hno
  have := actsOn_weight hp
  omega

/-- **C101**.  If every Pauli error on at most `t` qubits of such a code is undone by one table of corrections, then `k + 4 t ≤ n`. -/
theorem C101_corrects (s : StabInput) (k : ℕ) (c : StabCode) (h : stabInit s c.n k none = .ok c)
    (hb : BinaryArr c.stab) (hind : Independent c.n c.stab)
    (hY : ∀ a < c.stab.rows, parityY (rowPauli c.n (c.stab.row a)) = 0) (hk : 1 ≤ k) (t : ℕ)
    (table : List (ZMod 2) → List ℤ) (ht : ∀ rs, (table rs).length = 2 * c.n ∧ IsBinary (table rs))
    (hU : Undoes c k {e | e.length = 2 * c.n ∧ IsBinary e ∧ weight (rowPauli c.n e) ≤ t} table) : k + 4 * t ≤ c.n := by
  classical
  have hcond := (C73_correctable s k c h hb hind hY _ fun e he => ⟨he.1, he.2.1⟩).mp ⟨table, ht, hU⟩
  have h1 := singleton_of h hb hind hk (2 * t) (by
    intro T hT p hp hcom
    obtain ⟨U, hUT, hUc⟩ := Finset.exists_subset_card_eq (s := T) (n := min t T.card) (by omega)
    let a : Pauli c.n := ⟨fun j => if j ∈ U then p.x j else 0, fun j => if j ∈ U then p.z j else 0⟩
    let b : Pauli c.n := ⟨fun j => if j ∈ U then 0 else p.x j, fun j => if j ∈ U then 0 else p.z j⟩
    have hab : a.vec + b.vec = p.vec := by
      refine Prod.ext ?_ ?_ <;> funext j <;> by_cases hj : j ∈ U <;> simp [Pauli.vec, a, b, hj]
    have ha : SupportedOn U a := fun j hj => by simp [a, hj]
    have hbs : SupportedOn (T \ U) b := by
      intro j hj
      by_cases hjU : j ∈ U
      · simp [b, hjU]
      · have hjT : j ∉ T := fun hjT => hj (Finset.mem_sdiff.mpr ⟨hjT, hjU⟩)
        simp [b, hjU, hp j hjT]
    obtain ⟨a1, a2, a3⟩ := pauliRow_spec a
    obtain ⟨b1, b2, b3⟩ := pauliRow_spec b
    have hwa := actsOn_weight ha
    have hwb := actsOn_weight hbs
    have hc := Finset.card_sdiff_of_subset hUT
    have hmem := hcond (pauliRow a) ⟨a1, a2, by rw [a3]; omega⟩ (pauliRow b) ⟨b1, b2, by rw [b3]; omega⟩ (by
      intro g hg
      have h0 := hcom g hg
      rw [← sympV_vec, ← hab, sympV_add_right] at h0
      rw [a3, b3, ← sympV_vec, ← sympV_vec]
      have hz : ∀ a b : ZMod 2, a + b = 0 → a = b := by decide
      exact hz _ _ h0)
    rwa [a3, b3, hab] at hmem)
  omega

/-- **C101**.  If the measurements detect every noise on the qubits of `A` and every noise on the qubits of `B`, and the two sets are
disjoint, there are at least `k` qubits in neither. -/
theorem C101_disjoint (s : StabInput) (k : ℕ) (c : StabCode) (h : stabInit s c.n k none = .ok c)
    (hb : BinaryArr c.stab) (hind : Independent c.n c.stab)
    (hY : ∀ a < c.stab.rows, parityY (rowPauli c.n (c.stab.row a)) = 0) (A B : Finset (Fin c.n)) (hAB : Disjoint A B)
    (hA : DetectsNoise c k {M | ActsOn A M}) (hB : DetectsNoise c k {M | ActsOn B M}) : k ≤ (A ∪ B)ᶜ.card := by
  classical
  have h1 := disjoint_bound h hb hind A B hAB ((C100_equivalent s k c h hb hind hY A).1.mpr hA)
    ((C100_equivalent s k c h hb hind hY B).1.mpr hB)
  rw [Finset.card_compl, Finset.card_union_of_disjoint hAB, Fintype.card_fin]
  omega

/-! ### A case that meets the hypotheses -/

/-- **C101**, an instance: the code of XZZXI, IXZZX, XIXZZ and ZXIXZ corrects every error on one qubit and has
distance 3, the largest the bound allows. -/
theorem C101_five_qubits : ∃ c, stabInit (.rows fiveRows) c.n 1 none = .ok c ∧ c.n = 5 ∧ DistanceAtLeast c.n c.iter 3 ∧
    (∀ d, 1 ≤ d → DistanceAtLeast c.n c.iter d → d ≤ 3) ∧
    ∃ table : List (ZMod 2) → List ℤ, (∀ rs, (table rs).length = 2 * c.n ∧ IsBinary (table rs)) ∧
      Undoes c 1 {e | e.length = 2 * c.n ∧ IsBinary e ∧ weight (rowPauli c.n e) ≤ 1} table := by
  obtain ⟨c, h1, h2, h3, h4, h5⟩ := five_code
  have hn : c.n = 5 := (accepted_facts h1 h2 h3).1
  have hd : DistanceAtLeast c.n c.iter 3 := by
    rw [hn]
    intro p hcom hno
    by_contra hlt
    exact hno (five_distance h5 p (by omega) hcom)
  have g1 : stabInit (.rows fiveRows) c.n 1 none = .ok c := by rw [hn]; exact h1
  have g3 : Independent c.n c.stab := by rw [hn]; exact h3
  have g4 : ∀ a < c.stab.rows, parityY (rowPauli c.n (c.stab.row a)) = 0 := by rw [hn]; exact h4
  refine ⟨c, g1, hn, hd, ?_, C73_distance _ 1 c g1 h2 g3 g4 1 (by rw [hn]; exact five_distance h5)⟩
  intro d hd1 hD
  have := C101_singleton _ c.n 1 c g1 h2 g3 le_rfl d hd1 hD
  omega

end PyQ
