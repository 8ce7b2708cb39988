import Verif.Props.StabInput
import Verif.Props.PoolExact

/-!
# Strings whose length is not that of the first one (C74)

The length of the first string is the length of all: what a longer string has beyond it is never read, and a shorter one
raises.
-/

namespace PyQ

/-- Only the first `m` letters of a string are read. -/
theorem pauliStrRow_take (m : ℕ) (p : List Char) : pauliStrRow m (p.take m) = pauliStrRow m p := by
  unfold pauliStrRow
  have : (List.range m).mapM (symbolAt (p.take m)) = (List.range m).mapM (symbolAt p) := by
    have key : ∀ q : List ℕ, (∀ j ∈ q, j < m) → q.mapM (symbolAt (p.take m)) = q.mapM (symbolAt p) := by
      intro q hq
      induction q with
      | nil => rfl
      | cons a q ih =>
        have ha : symbolAt (p.take m) a = symbolAt p a := by
          unfold symbolAt
          rw [List.getElem?_take, if_pos (hq a (List.mem_cons_self ..))]
        rw [List.mapM_cons, List.mapM_cons, ha, ih fun j hj => hq j (List.mem_cons_of_mem _ hj)]
    exact key _ fun j hj => List.mem_range.mp hj
  rw [this]

/-- **C74 (letters ignored), for every input**: letters beyond the length of the first string are never read: the code
built, or the exception raised, is the same as for the strings cut to that length. -/
theorem C74_strings_cut (l : List (List Char)) (n k : ℕ) (lo : Option (Arr ℤ × Arr ℤ)) :
    stabInitAny (.strs l) n k lo = stabInitAny (.strs (l.map fun p => p.take (l.headD []).length)) n k lo := by
  have h : initArrayAny (.strs l) n k = initArrayAny (.strs (l.map fun p => p.take (l.headD []).length)) n k := by
    cases l with
    | nil => rfl
    | cons p0 l =>
      have h1 : pauliStrToBinaryRepresentation (p0 :: l) =
          pauliStrToBinaryRepresentation ((p0 :: l).map fun p => p.take p0.length) := by
        have hr : ∀ m : ℕ, ∀ q : List (List Char),
            q.mapM (pauliStrRow m) = (q.map fun p => p.take m).mapM (pauliStrRow m) := by
          intro m q
          induction q with
          | nil => rfl
          | cons a q ih => rw [List.map_cons, List.mapM_cons, List.mapM_cons, pauliStrRow_take, ih]
        have h2 := hr p0.length (p0 :: l)
        rw [List.map_cons] at h2 ⊢
        simp only [pauliStrToBinaryRepresentation, List.length_take, Nat.min_self]
        exact h2
      unfold initArrayAny
      simp only [List.headD_cons, List.map_cons, List.length_take, Nat.min_self]
      rw [h1]
      rfl
  unfold stabInitAny
  rw [h]

/-- **C74 (short strings), for every input**: a string shorter than the first one is never accepted. -/
theorem C74_strings_short (l : List (List Char)) (n k : ℕ) (lo : Option (Arr ℤ × Arr ℤ)) (p : List Char) (hp : p ∈ l)
    (hs : p.length < (l.headD []).length) : ∃ e, (e = .index ∨ e = .value) ∧ stabInitAny (.strs l) n k lo = .error e := by
  have hconv : ∃ e, (e = .index ∨ e = .value) ∧ pauliStrToBinaryRepresentation l = .error e := by
    rcases hc : pauliStrToBinaryRepresentation l with e | rows
    · refine ⟨e, ?_, rfl⟩
      rcases (C02_string_errors l e).mp hc with ⟨-, he⟩ | ⟨-, -, -, -, -, -, -, -, ⟨-, he⟩ | ⟨-, -, -, he⟩⟩
      · exact .inl he
      · exact .inl he
      · exact .inr he
    · exfalso
      cases l with
      | nil => cases hp
      | cons p0 l =>
        simp only [pauliStrToBinaryRepresentation] at hc
        rw [mapM_ok_iff] at hc
        obtain ⟨y, hy⟩ : ∃ y, pauliStrRow p0.length p = .ok y := by
          obtain ⟨i, hi, rfl⟩ := List.getElem_of_mem hp
          rw [List.forall₂_iff_get] at hc
          exact ⟨_, hc.2 i hi (by rw [← hc.1]; exact hi)⟩
        unfold pauliStrRow at hy
        obtain ⟨bits, hbits, -⟩ := bind_ok_iff.mp hy
        rw [mapM_ok_iff, List.forall₂_iff_get] at hbits
        rw [List.headD_cons] at hs
        have := hbits.2 p.length (by simpa using hs) (by rw [← hbits.1]; simpa using hs)
        simp only [List.get_eq_getElem, List.getElem_range, symbolAt, List.getElem?_length] at this
        cases this
  obtain ⟨e, he, hc⟩ := hconv
  refine ⟨e, he, ?_⟩
  unfold stabInitAny initArrayAny
  simp only [hc, error_bind']

/-- **C74 (strings), exactly**: for `k ≥ 1` and without supplied operators a list of strings is accepted exactly if the first
has length `n`, there are `n - k`, no other one is shorter, and the strings cut to `n` letters are accepted; the code is
then the code of the cut strings.  `C10_strings_accepted_iff_partial` says when that is. -/
theorem C74_strings_exact_partial (l : List (List Char)) (n k : ℕ) (hk : 1 ≤ k) (c : StabCode) :
    stabInitAny (.strs l) n k none = .ok c ↔
      ((l.headD []).length = n ∧ l.length + k = n ∧ (∀ p ∈ l, n ≤ p.length) ∧
        stabInit (.strs (l.map fun p => p.take n)) n k none = .ok c) := by
  have hag : (l.headD []).length = n →
      stabInitAny (.strs (l.map fun p => p.take n)) n k none = stabInit (.strs (l.map fun p => p.take n)) n k none := by
    intro hn
    refine C74_agrees _ _ _ _ fun l' hl' => ?_
    injection hl' with hl'
    rw [← hl']
    cases l with
    | nil => exact hn
    | cons p0 l =>
      rw [List.headD_cons] at hn
      simp [hn]
  constructor
  · intro h
    rcases C74_strings_partial l n k c h with ⟨h1, h2⟩ | ⟨h1, -⟩
    · refine ⟨h1, h2, fun p hp => ?_, ?_⟩
      · by_contra hlt
        obtain ⟨e, -, he⟩ := C74_strings_short l n k none p hp (by omega)
        rw [he] at h
        cases h
      · rw [← hag h1]
        rw [C74_strings_cut, h1] at h
        exact h
    · omega
  · rintro ⟨h1, h2, -, h4⟩
    rw [C74_strings_cut, h1, hag h1]
    exact h4

/-- Concrete case: `XXXX` and `ZZZZ!?` give the code of `XXXX` and `ZZZZ`. -/
example : stabInitAny (.strs ["XXXX".toList, "ZZZZ!?".toList]) 4 2 none =
    stabInitAny (.strs ["XXXX".toList, "ZZZZ".toList]) 4 2 none := by
  rw [C74_strings_cut]
  rfl

/-- Concrete case: a short second string. -/
example : ∃ e, (e = .index ∨ e = .value) ∧ stabInitAny (.strs ["XXXX".toList, "ZZZ".toList]) 4 2 none = .error e :=
  C74_strings_short _ _ _ _ "ZZZ".toList (by simp) (by decide)

end PyQ
