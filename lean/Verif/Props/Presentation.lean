import Verif.Props.AcceptExact
import Verif.Props.SameCode

/-! C134: every group has an accepted presentation; order of generators and names of qubits do not matter. -/

namespace PyQ

open Spec

variable {n : ℕ}

theorem ranks_of_mem {F : Type} [Field F] {l l' : List (List ℤ)} (h : ∀ r, r ∈ l ↔ r ∈ l') :
    (xHalf F l n).rank = (xHalf F l' n).rank := by
  rw [Matrix.rank_eq_finrank_span_row, Matrix.rank_eq_finrank_span_row]
  have key : ∀ {a b : List (List ℤ)}, (∀ r, r ∈ a → r ∈ b) → Set.range (xHalf F a n).row ⊆ Set.range (xHalf F b n).row := by
    rintro a b hab _ ⟨i, rfl⟩
    obtain ⟨j, hj, he⟩ := List.getElem_of_mem (hab _ (List.getElem_mem i.2))
    refine ⟨⟨j, hj⟩, ?_⟩
    funext c
    simp only [xHalf, Matrix.row, Matrix.of_apply]
    rw [show (b[(⟨j, hj⟩ : Fin b.length)]) = a[i] from he]
  rw [Set.Subset.antisymm (key fun r => (h r).1) (key fun r => (h r).2)]

/-- **C134**, order.  The order of the generators does not matter: lists with the same members and the same length are
accepted alike. -/
theorem C134_order (l l' : List (List ℤ)) (n k : ℕ) (hb : ∀ r ∈ l, IsBinary r) (h : ∀ r, r ∈ l ↔ r ∈ l')
    (hlen : l.length = l'.length) :
    (∃ c, stabInit (.rows l) n k none = .ok c) ↔ ∃ c, stabInit (.rows l') n k none = .ok c := by
  rw [accepted_iff hb, accepted_iff fun r hr => hb r ((h r).2 hr)]
  have key : ∀ {a b : List (List ℤ)}, (∀ r, r ∈ a ↔ r ∈ b) → a.length = b.length →
      Commutative a n k ∧ RanksAgree a n → Commutative b n k ∧ RanksAgree b n := by
    rintro a b hab hl ⟨⟨h1, h2, h3, h4⟩, h5⟩
    refine ⟨⟨?_, fun r hr => h2 r ((hab r).2 hr), by omega, fun p hp q hq => h4 p ((hab p).2 hp) q ((hab q).2 hq)⟩, ?_⟩
    · rintro rfl
      exact h1 (List.length_eq_zero_iff.mp (by simpa using hl))
    · unfold RanksAgree at *
      rw [← ranks_of_mem hab, ← ranks_of_mem hab]
      exact h5
  exact ⟨key h hlen, key (fun r => (h r).symm) hlen.symm⟩

theorem renamed_getD (π : Equiv.Perm (Fin n)) (r : List ℤ) (j : Fin n) :
    (renamed n π r).getD j 0 = r.getD (π j) 0 ∧ (renamed n π r).getD (n + j) 0 = r.getD (n + π j) 0 := by
  constructor
  · unfold renamed
    rw [List.getD_append _ _ _ _ (by simp), List.getD_eq_getElem _ _ (by simp)]
    simp
  · unfold renamed
    rw [List.getD_append_right _ _ _ _ (by simp), List.getD_eq_getElem _ _ (by simp)]
    simp

theorem renamed_pauli (π : Equiv.Perm (Fin n)) (r : List ℤ) :
    (rowPauli n (renamed n π r)).vec = relabel π (rowPauli n r).vec := by
  ext j
  · show (((renamed n π r).getD j 0 : ℤ) : ZMod 2) = ((r.getD (π j) 0 : ℤ) : ZMod 2)
    rw [(renamed_getD π r j).1]
  · show (((renamed n π r).getD (n + j) 0 : ℤ) : ZMod 2) = ((r.getD (n + π j) 0 : ℤ) : ZMod 2)
    rw [(renamed_getD π r j).2]

theorem renamed_binary (π : Equiv.Perm (Fin n)) {r : List ℤ} (h : IsBinary r) : IsBinary (renamed n π r) := by
  have hd : ∀ j, r.getD j 0 = 0 ∨ r.getD j 0 = 1 := by
    intro j
    by_cases hj : j < r.length
    · rw [List.getD_eq_getElem _ _ hj]
      exact h _ (List.getElem_mem _)
    · left
      rw [List.getD_eq_default _ _ (by omega)]
  intro v hv
  unfold renamed at hv
  rw [List.mem_append, List.mem_ofFn, List.mem_ofFn] at hv
  rcases hv with ⟨j, rfl⟩ | ⟨j, rfl⟩
  · exact hd _
  · exact hd _

theorem renamed_length (π : Equiv.Perm (Fin n)) (r : List ℤ) : (renamed n π r).length = 2 * n := by
  simp [renamed]; omega

theorem symp_renamed (π : Equiv.Perm (Fin n)) (p q : List ℤ) :
    symp (rowPauli n (renamed n π p)) (rowPauli n (renamed n π q)) = symp (rowPauli n p) (rowPauli n q) := by
  have : sympV (rowPauli n (renamed n π p)).vec (rowPauli n (renamed n π q)).vec
      = sympV (rowPauli n p).vec (rowPauli n q).vec := by
    rw [renamed_pauli, renamed_pauli, sympV_relabel]
  exact this

theorem ranks_renamed {F : Type} [Field F] (π : Equiv.Perm (Fin n)) (l : List (List ℤ)) :
    (xHalf F (l.map (renamed n π)) n).rank = (xHalf F l n).rank := by
  have hl : (l.map (renamed n π)).length = l.length := by simp
  have : xHalf F (l.map (renamed n π)) n = (xHalf F l n).submatrix (finCongr hl) π := by
    ext i j
    simp only [xHalf, Matrix.of_apply, Matrix.submatrix_apply]
    congr 1
    have : (l.map (renamed n π))[i] = renamed n π (l[(finCongr hl) i]) := by
      simp
    rw [this]
    exact (renamed_getD π _ j).1
  rw [this, Matrix.rank_submatrix]

/-- **C134**, names of the qubits.  Renaming the qubits does not change whether generators of the right length are
accepted. -/
theorem C134_renamed (l : List (List ℤ)) (n k : ℕ) (hb : ∀ r ∈ l, IsBinary r) (hl : ∀ r ∈ l, r.length = 2 * n)
    (π : Equiv.Perm (Fin n)) :
    (∃ c, stabInit (.rows (l.map (renamed n π))) n k none = .ok c) ↔ ∃ c, stabInit (.rows l) n k none = .ok c := by
  have hb' : ∀ r ∈ l.map (renamed n π), IsBinary r := by
    intro r hr
    obtain ⟨p, hp, rfl⟩ := List.mem_map.mp hr
    exact renamed_binary π (hb p hp)
  rw [accepted_iff hb, accepted_iff hb']
  have hR : RanksAgree (l.map (renamed n π)) n ↔ RanksAgree l n := by
    unfold RanksAgree
    rw [ranks_renamed, ranks_renamed]
  rw [hR]
  refine and_congr_left fun _ => ⟨fun h => ⟨?_, hl, ?_, ?_⟩, fun h => ⟨?_, ?_, ?_, ?_⟩⟩
  · rintro rfl; exact h.nonempty rfl
  · simpa using h.count
  · intro p hp q hq
    rw [← symp_renamed π p q]
    exact h.commute _ (List.mem_map_of_mem hp) _ (List.mem_map_of_mem hq)
  · simpa using h.nonempty
  · intro r hr
    obtain ⟨p, -, rfl⟩ := List.mem_map.mp hr
    exact renamed_length π p
  · simpa using h.count
  · intro p hp q hq
    obtain ⟨p', hp', rfl⟩ := List.mem_map.mp hp
    obtain ⟨q', hq', rfl⟩ := List.mem_map.mp hq
    rw [symp_renamed]
    exact h.commute p' hp' q' hq'

/-- If the rows from `r` on have no X part, the rational X rank is at most `r`. -/
theorem xRankQ_le_of_zero {A : Arr ℤ} {r : ℕ} (h : ∀ i, r ≤ i → i < A.rows → ∀ c < n, A.get i c = 0) : xRankQ n A ≤ r := by
  classical
  unfold xRankQ
  rw [Matrix.rank_eq_finrank_span_row]
  set M : Matrix (Fin A.rows) (Fin n) ℚ := Matrix.of fun i j => ((A.get i j : ℤ) : ℚ) with hM
  have hsub : Submodule.span ℚ (Set.range M.row) ≤
      Submodule.span ℚ (((Finset.univ : Finset (Fin A.rows)).filter fun i => i.val < r).image M.row : Set (Fin n → ℚ)) := by
    rw [Submodule.span_le]
    rintro _ ⟨i, rfl⟩
    by_cases hi : i.val < r
    · exact Submodule.subset_span (by simpa using ⟨i, hi, rfl⟩)
    · have : M.row i = 0 := by
        funext c
        simp only [hM, Matrix.row, Matrix.of_apply, Pi.zero_apply]
        rw [h i (by omega) i.2 c c.2]
        norm_num
      rw [this]
      exact Submodule.zero_mem _
  refine (Submodule.finrank_mono hsub).trans ((finrank_span_finset_le_card _).trans (Finset.card_image_le.trans ?_))
  have : ((Finset.univ : Finset (Fin A.rows)).filter fun i => i.val < r).card ≤ (Finset.range r).card := by
    refine Finset.card_le_card_of_injOn (fun i => i.val) (fun i hi => ?_) (fun i _ j _ h => Fin.ext h)
    simpa using hi
  simpa using this

/-- **C134**, rescue.  Every commuting family of `n - k` generators has another presentation of the same group, with as
many 0/1 generators, that is accepted. -/
theorem C134_some_presentation (l : List (List ℤ)) (n k : ℕ) (hb : ∀ r ∈ l, IsBinary r) (h : Commutative l n k) :
    ∃ l' : List (List ℤ), (∀ r ∈ l', IsBinary r) ∧ l'.length = l.length ∧ groupOf n l' = groupOf n l ∧
      ∃ c, stabInit (.rows l') n k none = .ok c := by
  set A := Arr.ofRows (2 * n) l with hAdef
  have hA : BinaryArr A := ofRows_binary hb
  have hc : A.cols = 2 * n := rfl
  have hr1 : xRank2 n A ≤ n := (xRank2_le_Q A).trans (xRankQ_le_n A)
  have hr2 : xRank2 n A ≤ A.rows := (xRank2_le_Q A).trans (xRankQ_le_rows A)
  have e1 := equi_firstBlock (n := n) A hr1 hr2
  have i1 := firstBlock_spec hA hc (le_refl (xRank2 n A))
  set B := firstBlock n (xRank2 n A) A with hB
  have hlow : ∀ i, xRank2 n A ≤ i → i < B.rows → ∀ c < n, B.get i c = 0 := by
    intro i hi hi2 c hcn
    by_contra hne
    have := lt_xRank2_of_one hr1 (by rw [e1.rows]; exact hr2) i1.unit i1.bin i1.cols hi hi2 hcn hne
    rw [e1.xRank2] at this
    omega
  have hBQ : xRankQ n B = xRank2 n B := by
    refine le_antisymm ?_ (xRank2_le_Q _)
    rw [e1.xRank2]
    exact xRankQ_le_of_zero hlow
  obtain ⟨σ, hσ⟩ := e1.span
  set b : List (List ℤ) := (List.range B.rows).map B.row with hbdef
  have hrowlen : ∀ i, (B.row i).length = 2 * n := by
    intro i
    simp [Arr.row, i1.cols]
  have hbl : b.length = l.length := by
    simp only [hbdef, List.length_map, List.length_range]
    exact e1.rows
  have hbbin : ∀ r ∈ b, IsBinary r := by
    intro r hr v hv
    obtain ⟨i, hi, rfl⟩ := List.mem_map.mp hr
    simp only [Arr.row, List.mem_map, List.mem_range] at hv
    obtain ⟨j, hj, rfl⟩ := hv
    exact i1.bin i (List.mem_range.mp hi) j hj
  have hget : ∀ (i : Fin b.length) (j : ℕ), j < 2 * n → b[i].getD j 0 = B.get i j := by
    intro i j hj
    have hrow : b[i] = B.row i := by simp [hbdef]
    rw [hrow, List.getD_eq_getElem _ _ (by rw [hrowlen]; exact hj)]
    simp [Arr.row]
  have hranks : RanksAgree b n := by
    have hcast : ∀ (F : Type) [Field F], xHalf F b n =
        (Matrix.of fun (i : Fin B.rows) (j : Fin n) => ((B.get i j : ℤ) : F)).submatrix
          (finCongr (show b.length = B.rows by simp [hbdef])) (Equiv.refl _) := by
      intro F _
      ext i j
      simp only [xHalf, Matrix.of_apply, Matrix.submatrix_apply]
      rw [hget i j (by omega)]
      rfl
    unfold RanksAgree
    rw [hcast ℚ, hcast (ZMod 2), Matrix.rank_submatrix, Matrix.rank_submatrix]
    exact hBQ
  have hgb : groupOf n b = (groupOf n l).map (relabel σ).toLinearMap := by
    rw [hbdef, groupOf_rows i1.cols, hσ, hAdef, rowSpan_ofRows]
  have hgrp : groupOf n (b.map (renamed n σ.symm)) = groupOf n l := by
    have h1 : groupOf n (b.map (renamed n σ.symm)) = (groupOf n b).map (relabel σ.symm).toLinearMap := by
      unfold groupOf
      rw [Submodule.map_span]
      congr 1
      ext v
      constructor
      · rintro ⟨r, hr, rfl⟩
        obtain ⟨p, hp, rfl⟩ := List.mem_map.mp hr
        exact ⟨_, ⟨p, hp, rfl⟩, (renamed_pauli _ _).symm⟩
      · rintro ⟨_, ⟨p, hp, rfl⟩, rfl⟩
        exact ⟨_, List.mem_map_of_mem hp, (renamed_pauli _ _).symm⟩
    rw [h1, hgb, ← Submodule.map_comp, relabel_mul]
    have : σ * σ.symm = 1 := by ext; simp
    rw [this, relabel_one, Submodule.map_id]
  have hcomB : Commuting n B := e1.commuting (commuting_ofRows.mpr h.commute)
  refine ⟨b.map (renamed n σ.symm), ?_, by simpa using hbl, hgrp, ?_⟩
  · intro r hr
    obtain ⟨p, hp, rfl⟩ := List.mem_map.mp hr
    exact renamed_binary _ (hbbin p hp)
  · have hwb : ∀ r ∈ b, r.length = 2 * n := by
      intro r hr
      obtain ⟨i, -, rfl⟩ := List.mem_map.mp hr
      exact hrowlen i
    rw [C134_renamed b n k hbbin hwb, accepted_iff hbbin]
    refine ⟨⟨?_, hwb, by rw [hbl]; exact h.count, ?_⟩, hranks⟩
    · intro hnil
      rw [hnil] at hbl
      exact h.nonempty (List.length_eq_zero_iff.mp hbl.symm)
    · rw [← commuting_ofRows]
      intro i hi j hj
      have hrv : ∀ i, i < b.length → rowVec n (Arr.ofRows (2 * n) b) i = rowVec n B i := by
        intro i hi
        rw [rowVec_ofRows, List.getD_eq_getElem _ _ hi]
        ext c
        · show (((b[i]).getD c 0 : ℤ) : ZMod 2) = _
          exact congrArg (fun z : ℤ => (z : ZMod 2)) (hget ⟨i, hi⟩ c (by omega))
        · show (((b[i]).getD (n + c) 0 : ℤ) : ZMod 2) = _
          exact congrArg (fun z : ℤ => (z : ZMod 2)) (hget ⟨i, hi⟩ (n + c) (by omega))
      rw [hrv i hi, hrv j hj]
      have hbr : b.length = B.rows := by simp [hbdef]
      exact hcomB i (by rw [← hbr]; exact hi) j (by rw [← hbr]; exact hj)

/-- `badGens` themselves have an accepted presentation, and so does each of their reorderings. -/
example : ∃ l', (∀ r ∈ l', IsBinary r) ∧ l'.length = 3 ∧ groupOf 4 l' = groupOf 4 badGens ∧
    ∃ c, stabInit (.rows l') 4 1 none = .ok c :=
  C134_some_presentation badGens 4 1 (by unfold IsBinary; decide) ⟨by decide, by decide, by decide, C10_refuted.1⟩

example : ∃ c, stabInit (.rows (goodGens.reverse.map (renamed 4 (Equiv.swap 0 3)))) 4 1 none = .ok c :=
  (C134_renamed _ 4 1 (by unfold IsBinary; decide) (by decide) _).mpr
    ((C134_order goodGens _ 4 1 (by unfold IsBinary; decide) (fun r => by simp) (by decide)).mp C124_choice_refuted.2.2)

end PyQ
