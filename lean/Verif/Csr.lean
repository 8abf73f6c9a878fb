import Verif.Basic
import Mathlib.Tactic.Common

/-!
# Compressed rows

Helper lemmas shared by the graph and the sparse matrix proofs: a compressed row storage of a list of rows `L` has the
concatenation of the rows as its data and the prefix sums `offs L` as its offsets.
-/

namespace Disa

/-- Number of entries in the first `i` rows. -/
def psum (L : List (List α)) (i : Nat) : Nat := (L.take i).flatten.length

/-- The offset vector of a list of rows. -/
def offs (L : List (List α)) : List Nat := (List.range (L.length + 1)).map (psum L)

@[simp] theorem offs_length (L : List (List α)) : (offs L).length = L.length + 1 := by simp [offs]

@[simp] theorem psum_zero (L : List (List α)) : psum L 0 = 0 := by simp [psum]

theorem offs_getElem? (L : List (List α)) {i : Nat} (h : i ≤ L.length) : (offs L)[i]? = some (psum L i) := by
  have : i < L.length + 1 := by omega
  simp [offs, this]

theorem offs_getElem?_none (L : List (List α)) {i : Nat} (h : L.length < i) : (offs L)[i]? = none := by
  simp [offs]; omega

theorem psum_succ (L : List (List α)) {i : Nat} (h : i < L.length) : psum L (i + 1) = psum L i + L[i].length := by
  unfold psum
  rw [List.take_succ_eq_append_getElem h, List.flatten_append, List.length_append]
  simp [-List.length_flatten]

theorem psum_length (L : List (List α)) : psum L L.length = L.flatten.length := by simp [psum]

theorem psum_mono (L : List (List α)) {i j : Nat} (h : i ≤ j) : psum L i ≤ psum L j := by
  have : L.take i = (L.take j).take i := by rw [List.take_take]; congr 1; omega
  unfold psum
  rw [this]
  conv => rhs; rw [← List.take_append_drop i (L.take j)]
  simp only [List.flatten_append, List.length_append]
  omega

theorem psum_of_ge (L : List (List α)) {i : Nat} (h : L.length ≤ i) : psum L i = L.flatten.length := by
  simp [psum, List.take_of_length_le h]

theorem psum_le (L : List (List α)) (i : Nat) : psum L i ≤ L.flatten.length := by
  rw [← psum_of_ge L (Nat.le_max_left L.length i)]
  exact psum_mono L (Nat.le_max_right _ _)

theorem offs_eq_iff {l : List Nat} {L : List (List α)} :
    l = offs L ↔ l.length = L.length + 1 ∧ ∀ i, i ≤ L.length → l[i]? = some (psum L i) := by
  constructor
  · rintro rfl; exact ⟨by simp, fun i hi => offs_getElem? L hi⟩
  · rintro ⟨h1, h2⟩
    apply List.ext_getElem?
    intro i
    by_cases hi : i ≤ L.length
    · rw [h2 i hi, offs_getElem? L hi]
    · rw [offs_getElem?_none L (by omega), List.getElem?_eq_none (by omega)]

theorem row_cases (L : List (List α)) {i : Nat} (h : i < L.length) :
    ∃ A B, L = A ++ L[i] :: B ∧ A.length = i :=
  ⟨L.take i, L.drop (i + 1), by simp, by simp; omega⟩

@[simp] theorem psum_mid (A B : List (List α)) : psum (A ++ B) A.length = A.flatten.length := by simp [psum]

@[simp] theorem psum_mid_succ (A B : List (List α)) (r : List α) :
    psum (A ++ r :: B) (A.length + 1) = A.flatten.length + r.length := by
  simp [psum, List.take_append, List.take_of_length_le, -List.length_flatten]

theorem slice_row (L : List (List α)) {i : Nat} (h : i < L.length) :
    slice L.flatten (psum L i) (psum L (i + 1)) = .ok L[i] := by
  rw [slice_ok (psum_mono L (by omega)) (psum_le L _)]
  obtain ⟨A, B, hL, rfl⟩ := row_cases L h
  generalize L[A.length] = r at hL
  subst hL
  simp

theorem flatten_set (L : List (List α)) {i : Nat} (h : i < L.length) (r : List α) :
    (L.set i r).flatten = L.flatten.take (psum L i) ++ r ++ L.flatten.drop (psum L (i + 1)) := by
  obtain ⟨A, B, hL, rfl⟩ := row_cases L h
  generalize L[A.length] = r' at hL
  subst hL
  simp [-List.length_flatten, ← List.drop_drop]

theorem psum_set (L : List (List α)) {i : Nat} (h : i < L.length) (r : List α) (j : Nat) :
    psum (L.set i r) j = if j ≤ i then psum L j else psum L j - L[i].length + r.length := by
  split
  · rename_i hj
    unfold psum
    rw [List.take_set_of_le hj]
  · rename_i hj
    have hjl : psum L (i+1) ≤ psum L j := psum_mono L (by omega)
    have h1 := psum_succ L h
    have e : (L.set i r).take j = (L.take j).set i r := by rw [List.take_set]
    have hi' : i < (L.take j).length := by simp; omega
    unfold psum
    rw [e, flatten_set _ hi']
    have t1 : psum (L.take j) i = psum L i := by
      unfold psum; rw [List.take_take]; congr 3; omega
    have t2 : psum (L.take j) (i+1) = psum L (i+1) := by
      unfold psum; rw [List.take_take]; congr 3; omega
    rw [t1, t2]
    have t3 : (L.take j).flatten.length = psum L j := rfl
    simp only [List.length_append, List.length_take, List.length_drop, t3]
    have : psum L i ≤ psum L j := psum_mono L (by omega)
    omega

/-- Inserting an element inside row `i`. -/
theorem insAt_flatten (L : List (List α)) {i k : Nat} (h : i < L.length) (hk : k ≤ L[i].length) (x : α) :
    insAt L.flatten (psum L i + k) x = (L.set i (insAt L[i] k x)).flatten := by
  obtain ⟨A, B, hL, rfl⟩ := row_cases L h
  generalize L[A.length] = r at hL hk
  subst hL
  simp [-List.length_flatten, insAt, ← List.drop_drop, List.take_append_of_le_length hk, List.drop_append_of_le_length hk,
    List.take_length_add_append]

/-- Erasing the positions `[k, m)` of row `i`. -/
theorem cut_flatten (L : List (List α)) {i k m : Nat} (h : i < L.length) (hkm : k ≤ m) (hm : m ≤ L[i].length) :
    cut L.flatten (psum L i + k) (psum L i + m) = (L.set i (cut L[i] k m)).flatten := by
  obtain ⟨A, B, hL, rfl⟩ := row_cases L h
  generalize L[A.length] = r at hL hm
  subst hL
  simp [-List.length_flatten, cut, ← List.drop_drop, List.take_append_of_le_length (Nat.le_trans hkm hm),
    List.drop_append_of_le_length hm, List.take_length_add_append]

theorem psum_append_replicate (L : List (List α)) (m i : Nat) :
    psum (L ++ List.replicate m []) i = psum L i := by
  unfold psum
  rw [List.take_append, List.flatten_append]
  simp [List.take_replicate]

/-- Overwriting the whole of row `i`. -/
theorem overwrite_flatten (L : List (List α)) {i : Nat} (h : i < L.length) {r : List α} (hr : r.length = L[i].length) :
    overwrite L.flatten (psum L i) r = .ok (L.set i r).flatten := by
  obtain ⟨A, B, hL, rfl⟩ := row_cases L h
  generalize L[A.length] = r' at hL hr
  subst hL
  simp [-List.length_flatten, overwrite, ← List.drop_drop, hr]

theorem psum_map_map (L : List (List α)) (f : α → β) (i : Nat) : psum (L.map (List.map f)) i = psum L i := by
  unfold psum
  rw [← List.map_take, ← List.map_flatten, List.length_map]

theorem offs_map_map (L : List (List α)) (f : α → β) : offs (L.map (List.map f)) = offs L := by
  unfold offs
  simp only [List.length_map]
  exact List.map_congr_left fun i _ => psum_map_map L f i

/-- The prefix sums only depend on the lengths of the rows. -/
theorem psum_congr {L : List (List α)} {M : List (List β)} (h : L.map List.length = M.map List.length) (i : Nat) :
    psum L i = psum M i := by
  unfold psum
  rw [List.length_flatten, List.length_flatten, List.map_take, List.map_take, h]

theorem flatten_map_range_succ (f : Nat → List α) (n : Nat) :
    ((List.range (n + 1)).map f).flatten = ((List.range n).map f).flatten ++ f n := by
  simp [List.range_succ]

end Disa
