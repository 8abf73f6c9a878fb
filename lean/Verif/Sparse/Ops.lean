import Verif.Sparse.Resize

/-!
# Insertion, erasure and assignment on rows
-/

namespace Disa
namespace Sparse

variable {α : Type} {m : Sparse α} {L : Rows α}

theorem resRows_grow (cs : Nat) {r c : Nat} (L : Rows α) (hr : L.length ≤ r) (hc : cs ≤ c) : resRows cs r c L = pad L r := by
  unfold resRows
  rw [if_neg (by omega), List.take_of_length_le hr]

theorem Rep.insertCore (h : m.Rep L) (hs : Sorted L) {i : Nat} (hi : i < L.length) (j : Nat) (v : α) :
    (j ∈ keys L[i] → m.insertCore i j v = .ok (m, (i, psum L i + pos j L[i]), false)) ∧
    (j ∉ keys L[i] → ∃ m', m.insertCore i j v = .ok (m', (i, psum L i + pos j L[i]), true) ∧
      m'.Rep (L.set i (insRow j v L[i])) ∧ m'.colSize = m.colSize) := by
  have hr := hs i
  rw [row_of_lt hi] at hr
  have hp := psum_succ L hi
  have hb : (decide (i < m.sizeRow)) = true := by simp [h.sizeRow, hi]
  constructor
  · intro hj
    rcases pos_cases hr j with ⟨h1, _⟩ | ⟨_, h1, h2⟩
    · exact absurd hj h1
    · unfold Sparse.insertCore
      simp only [h.lowerBound hs hi, h.rowEnd hi, hb, assert_true, Out.ok_bind]
      have hne : ((i, psum L i + pos j L[i]) == ((i, psum L (i + 1)) : Iter)) = false := by
        simp; omega
      simp only [hne, Bool.false_eq_true, if_false, h.colAt hi h1, Out.ok_bind, Out.pure_eq, h2, bne_self_eq_false]
  · intro hj
    have hrep := h.insertAt hi (pos_le j L[i]) j v
    rcases pos_cases hr j with ⟨_, h1⟩ | ⟨h1, _⟩
    · have hnew : (if (((i, psum L i + pos j L[i]) : Iter) == (i, psum L (i + 1))) then (pure true : Out Bool) else do
          let c ← m.colAt (i, psum L i + pos j L[i])
          pure (c != j)) = .ok true := by
        rcases h1 with h1 | ⟨h1, h2⟩
        · rw [if_pos (by simp; omega)]; rfl
        · rw [if_neg (by simp; omega), h.colAt hi h1]
          simp [h2]
      unfold Sparse.insertCore
      simp only [h.lowerBound hs hi, h.rowEnd hi, hb, assert_true, Out.ok_bind, hnew, if_true]
      exact ⟨_, rfl, hrep, rfl⟩
    · exact absurd h1 hj

/-- Rows after an insertion: grown to have row `i`, with the new element if its position is free. -/
def insRows (i j : Nat) (v : α) (L : Rows α) : Rows α :=
  if j ∈ keys (row L i) then L else (pad L (i + 1)).set i (insRow j v (row L i))

theorem sorted_pad (hs : Sorted L) (n : Nat) : Sorted (pad L n) := fun i => by rw [row_pad]; exact hs i

theorem Rep.grow [Zero α] (h : m.Rep L) (hs : Sorted L) {i j : Nat} (hi : i + 1 < sizeMax) (hj : j < sizeMax) :
    ∃ m1 m2, (if i ≥ m.sizeRow then m.resize (wrap (i + 1)) m.colSize else pure m) = .ok m1 ∧
      (if j ≥ m1.colSize then m1.resize m1.sizeRow (wrap (j + 1)) else pure m1) = .ok m2 ∧
      m1.Rep (pad L (i + 1)) ∧ m2.Rep (pad L (i + 1)) ∧ m2.colSize = max m.colSize (j + 1) := by
  have hwi : wrap (i + 1) = i + 1 := by unfold wrap; unfold sizeMax at hi; exact Nat.mod_eq_of_lt (by omega)
  have hwj : wrap (j + 1) = j + 1 := by unfold wrap; unfold sizeMax at hj; exact Nat.mod_eq_of_lt (by omega)
  obtain ⟨m1, e1, r1, c1⟩ : ∃ m1, (if i ≥ m.sizeRow then m.resize (wrap (i + 1)) m.colSize else pure m) = .ok m1 ∧
      m1.Rep (pad L (i + 1)) ∧ m1.colSize = m.colSize := by
    rw [h.sizeRow, hwi]
    by_cases hil : i ≥ L.length
    · rw [if_pos hil]
      obtain ⟨m1, h1, h2, h3⟩ := h.resize hs m.colSize (r := i + 1) (by omega)
      rw [resRows_grow _ L (by omega) (Nat.le_refl _)] at h3
      exact ⟨m1, h1, h3, h2⟩
    · rw [if_neg hil, pad_eq L (by omega)]
      exact ⟨m, rfl, h, rfl⟩
  have hs1 := sorted_pad hs (i + 1)
  obtain ⟨m2, e2, r2, c2⟩ : ∃ m2, (if j ≥ m1.colSize then m1.resize m1.sizeRow (wrap (j + 1)) else pure m1) = .ok m2 ∧
      m2.Rep (pad L (i + 1)) ∧ m2.colSize = max m.colSize (j + 1) := by
    rw [c1, r1.sizeRow, hwj]
    by_cases hjl : j ≥ m.colSize
    · rw [if_pos hjl]
      obtain ⟨m1, h1, h2, h3⟩ := r1.resize hs1 (j + 1) r1.small
      rw [resRows_grow _ _ (Nat.le_refl _) (by omega), pad_eq _ (Nat.le_refl _)] at h3
      exact ⟨m1, h1, h3, by omega⟩
    · rw [if_neg hjl]
      exact ⟨m1, rfl, r1, by omega⟩
  exact ⟨m1, m2, e1, e2, r1, r2, c2⟩

theorem Rep.insert [Zero α] (h : m.Rep L) (hs : Sorted L) {i j : Nat} (hi : i + 1 < sizeMax) (hj : j < sizeMax) (v : α) :
    ∃ m' b, m.insert i j v = .ok (m', (i, psum (pad L (i + 1)) i + pos j (row L i)), b) ∧
      m'.Rep (insRows i j v L) ∧ m'.colSize = max m.colSize (j + 1) ∧ (b = true ↔ j ∉ keys (row L i)) := by
  obtain ⟨m1, m2, e1, e2, _, r2, c2⟩ := h.grow hs hi hj
  have hs1 := sorted_pad hs (i + 1)
  have hil : i < (pad L (i + 1)).length := by simp
  have hrow : (pad L (i + 1))[i] = row L i := by rw [← row_of_lt hil, row_pad]
  have hcore := r2.insertCore hs1 hil j v
  rw [hrow] at hcore
  unfold Sparse.insert
  rw [e1, Out.ok_bind, e2, Out.ok_bind]
  unfold insRows
  by_cases hin : j ∈ keys (row L i)
  · rw [if_pos hin, hcore.1 hin]
    refine ⟨m2, false, rfl, ?_, c2, by simp [hin]⟩
    have : i < L.length := by
      by_contra hc
      rw [row_of_ge (by omega)] at hin
      simp at hin
    rwa [pad_eq L (by omega)] at r2
  · rw [if_neg hin]
    obtain ⟨m', h1, h2, h3⟩ := hcore.2 hin
    exact ⟨m', true, h1, h2, by omega, by simp [hin]⟩

theorem row_insRows (i j : Nat) (v : α) (L : Rows α) (a : Nat) :
    row (insRows i j v L) a = if a = i ∧ j ∉ keys (row L i) then insRow j v (row L i) else row L a := by
  unfold insRows
  by_cases hin : j ∈ keys (row L i)
  · rw [if_pos hin, if_neg (by tauto)]
  · rw [if_neg hin, row_set (by simp), row_pad]
    by_cases ha : a = i
    · rw [if_pos ha, if_pos ⟨ha, hin⟩]
    · rw [if_neg ha, if_neg (by tauto)]

theorem insRows_length (i j : Nat) (v : α) (L : Rows α) : (insRows i j v L).length = max L.length (i + 1) := by
  unfold insRows
  by_cases hin : j ∈ keys (row L i)
  · rw [if_pos hin]
    have : i < L.length := by
      by_contra hc
      rw [row_of_ge (by omega)] at hin
      simp at hin
    omega
  · rw [if_neg hin, List.length_set, pad_length]

theorem sorted_insRows (hs : Sorted L) (i j : Nat) (v : α) : Sorted (insRows i j v L) := by
  intro a
  rw [row_insRows]
  split
  · rename_i h
    exact insRow_sorted (hs i) h.2
  · exact hs a

/-! ### Assigning to an element -/

theorem set_pos_eq {r : List (Nat × α)} (hr : (keys r).Pairwise (· < ·)) {j : Nat} (hj : j ∈ keys r) (v : α) :
    ∃ hp : pos j r < r.length, r.set (pos j r) (r[pos j r].1, v) = setRow j v r := by
  rcases pos_cases hr j with ⟨h1, _⟩ | ⟨_, h1, h2⟩
  · exact absurd hj h1
  · refine ⟨h1, ?_⟩
    rw [h2]; rfl

theorem Rep.setPos (h : m.Rep L) (hs : Sorted L) {i j a : Nat} (hi : i < L.length) (hj : j ∈ keys (row L i)) (v : α) :
    ∃ m', m.setAt (a, psum L i + pos j (row L i)) v = .ok m' ∧ m'.colSize = m.colSize ∧
      m'.Rep (L.set i (setRow j v (row L i))) := by
  have hr := hs i
  rw [row_of_lt hi] at hr hj ⊢
  obtain ⟨hp, he⟩ := set_pos_eq hr hj v
  obtain ⟨m', h1, h2, h3⟩ := h.setAt (a := a) hi hp v
  rw [he] at h3
  exact ⟨m', h1, h2, h3⟩

theorem sorted_setRow (hs : Sorted L) {i j : Nat} (hi : i < L.length) (hj : j ∈ keys (row L i)) (v : α) :
    Sorted (L.set i (setRow j v (row L i))) := by
  intro a
  rw [row_set hi]
  split
  · rw [setRow_keys (hs i) hj]; exact hs i
  · exact hs a

theorem Rep.valPos (h : m.Rep L) (hs : Sorted L) {i j a : Nat} (hi : i < L.length) {v : α}
    (hv : (row L i).lookup j = some v) : m.valAt (a, psum L i + pos j (row L i)) = .ok v := by
  have hr := hs i
  rw [row_of_lt hi] at hr hv ⊢
  have hj : j ∈ keys L[i] := by
    by_contra hc
    rw [lookup_eq_none.mpr hc] at hv
    cases hv
  rcases pos_cases hr j with ⟨h1, _⟩ | ⟨_, h1, h2⟩
  · exact absurd hj h1
  · rw [h.valAt hi h1]
    have hm : L[i][pos j L[i]] ∈ L[i] := List.getElem_mem h1
    generalize L[i][pos j L[i]] = x at hm h2 ⊢
    obtain ⟨x1, x2⟩ := x
    subst h2
    have : (x1, x2) ∈ L[i] := hm
    rw [(lookup_eq_some hr).mpr this] at hv
    rw [Option.some.inj hv]

/-- The element-wise content of the rows. -/
def entry (L : Rows α) (i j : Nat) : Option α := (row L i).lookup j

theorem entry_insRows (hs : Sorted L) (i j : Nat) (v : α) (a b : Nat) :
    entry (insRows i j v L) a b =
      if a = i ∧ b = j ∧ entry L i j = none then some v else entry L a b := by
  unfold entry
  rw [row_insRows]
  by_cases hin : j ∈ keys (row L i)
  · rw [if_neg (by tauto), if_neg]
    rintro ⟨_, _, h⟩
    exact lookup_eq_none.mp h hin
  · by_cases ha : a = i
    · subst ha
      rw [if_pos ⟨rfl, hin⟩, lookup_insRow (hs a) hin]
      by_cases hb : b = j
      · subst hb; simp [lookup_eq_none.mpr hin]
      · simp [hb]
    · simp [ha]

theorem entry_setRow (hs : Sorted L) {i j : Nat} (hi : i < L.length) (hj : j ∈ keys (row L i)) (v : α) (a b : Nat) :
    entry (L.set i (setRow j v (row L i))) a b = if a = i ∧ b = j then some v else entry L a b := by
  unfold entry
  rw [row_set hi]
  by_cases ha : a = i
  · subst ha
    rw [if_pos rfl, lookup_setRow (hs a) hj]
    simp
  · simp [ha]

theorem mem_keys_iff {L : Rows α} {i j : Nat} : j ∈ keys (row L i) ↔ entry L i j ≠ none := by
  unfold entry
  rw [Ne, lookup_eq_none, not_not]

theorem entry_lt {i j : Nat} {v : α} (h : entry L i j = some v) : i < L.length := by
  by_contra hc
  unfold entry at h
  rw [row_of_ge (by omega)] at h
  simp at h

theorem entry_none_of_ge {i j : Nat} (h : L.length ≤ i) : entry L i j = none := by
  unfold entry; rw [row_of_ge h]; rfl

/-! ### The remaining calls -/

/-- Rows after an assignment to the element at `(i, j)`, made if absent. -/
def putRows (i j : Nat) (v : α) (L : Rows α) : Rows α :=
  if j ∈ keys (row L i) then L.set i (setRow j v (row L i)) else insRows i j v L

theorem putRows_length (i j : Nat) (v : α) (L : Rows α) : (putRows i j v L).length = max L.length (i + 1) := by
  unfold putRows
  split
  · rename_i h
    have : i < L.length := by
      by_contra hc
      rw [row_of_ge (by omega)] at h
      simp at h
    rw [List.length_set]; omega
  · exact insRows_length i j v L

theorem lt_of_key {i j : Nat} (h : j ∈ keys (row L i)) : i < L.length := by
  by_contra hc
  rw [row_of_ge (by omega)] at h
  simp at h

theorem sorted_putRows (hs : Sorted L) (i j : Nat) (v : α) : Sorted (putRows i j v L) := by
  unfold putRows
  split
  · rename_i h; exact sorted_setRow hs (lt_of_key h) h v
  · exact sorted_insRows hs i j v

theorem entry_putRows (hs : Sorted L) (i j : Nat) (v : α) (a b : Nat) :
    entry (putRows i j v L) a b = if a = i ∧ b = j then some v else entry L a b := by
  unfold putRows
  by_cases h : j ∈ keys (row L i)
  · rw [if_pos h, entry_setRow hs (lt_of_key h) h]
  · rw [if_neg h, entry_insRows hs]
    have : entry L i j = none := by
      by_contra hc; exact h (mem_keys_iff.mpr hc)
    simp [this]

theorem Rep.insertOrAssign [Zero α] (h : m.Rep L) (hs : Sorted L) {i j : Nat} (hi : i + 1 < sizeMax) (hj : j < sizeMax)
    (v : α) :
    ∃ m' it b, m.insertOrAssign i j v = .ok (m', it, b) ∧
      m'.Rep (putRows i j v L) ∧ m'.colSize = max m.colSize (j + 1) ∧ (b = true ↔ j ∉ keys (row L i)) := by
  obtain ⟨m1, b, h1, h2, h3, h4⟩ := h.insert hs hi hj v
  unfold Sparse.insertOrAssign
  rw [h1]
  simp only [Out.ok_bind]
  unfold putRows
  by_cases hin : j ∈ keys (row L i)
  · have hb : b = false := by
      cases b
      · rfl
      · exact absurd hin (h4.mp rfl)
    subst hb
    have hil := lt_of_key hin
    have hr : insRows i j v L = L := by unfold insRows; rw [if_pos hin]
    rw [hr] at h2
    obtain ⟨m2, h5, h6, h7⟩ := h2.setPos (a := i) hs hil hin v
    rw [if_neg (by simp), if_pos hin, psum_pad]
    simp only [h5, Out.ok_bind, Out.pure_eq]
    exact ⟨m2, _, false, rfl, h7, by omega, by simp [hin]⟩
  · have hb : b = true := h4.mpr hin
    subst hb
    rw [if_pos rfl, if_neg hin]
    exact ⟨m1, _, true, rfl, h2, h3, h4⟩

theorem lookup_insRows_self {i j : Nat} (hs : Sorted L) (v : α) (h : j ∉ keys (row L i)) :
    (row (insRows i j v L) i).lookup j = some v := by
  rw [row_insRows, if_pos ⟨rfl, h⟩, lookup_insRow (hs i) h, if_pos rfl]

theorem psum_insRows {i j : Nat} (v : α) (L : Rows α) : psum (insRows i j v L) i = psum L i := by
  unfold insRows
  split
  · rfl
  · rw [psum_set _ (by simp), if_pos (Nat.le_refl i), psum_pad]

theorem pos_insRow {r : List (Nat × α)} (hr : (keys r).Pairwise (· < ·)) {j : Nat} {v : α} (hj : j ∉ keys r) :
    pos j (insRow j v r) = pos j r := by
  obtain ⟨T, D, h1, h2, h3, h4⟩ := split_row hr j
  rw [← h2]
  subst h1
  have hD : ∀ x ∈ D, j < x.1 := by
    intro x hx
    have := h4 x hx
    have : x.1 ≠ j := fun h => hj (by
      simp only [keys, List.mem_map, List.mem_append]
      exact ⟨x, .inr hx, h⟩)
    omega
  rw [insRow_eq h3 hD, pos_eq, List.takeWhile_append_of_pos (by simpa using h3)]
  simp

/-- `matrix[i][j]`: the element is there afterwards and the reference is to it. -/
theorem Rep.ref [Zero α] (h : m.Rep L) (hs : Sorted L) {i j : Nat} (hi : i < L.length) (hj : j < sizeMax) :
    ∃ m' v, m.ref i j = .ok (m', (i, psum (insRows i j 0 L) i + pos j (row (insRows i j 0 L) i))) ∧
      m'.Rep (insRows i j 0 L) ∧ m'.colSize = (if j ∈ keys (row L i) then m.colSize else max m.colSize (j + 1)) ∧
      m'.valAt (i, psum (insRows i j 0 L) i + pos j (row (insRows i j 0 L) i)) = .ok v ∧
      (row (insRows i j 0 L) i).lookup j = some v := by
  have hr := hs i
  have hp := psum_succ L hi
  have hb : (decide (i < m.sizeRow)) = true := by simp [h.sizeRow, hi]
  have hsm := h.small
  unfold Sparse.ref
  simp only [hb, assert_true, Out.ok_bind, h.lowerBound hs hi, h.rowEnd hi]
  by_cases hin : j ∈ keys (row L i)
  · have hI : insRows i j (0 : α) L = L := by unfold insRows; rw [if_pos hin]
    rw [hI, if_pos hin]
    obtain ⟨v, hv⟩ : ∃ v, (row L i).lookup j = some v := Option.ne_none_iff_exists'.mp (mem_keys_iff.mp hin)
    have hval := h.valPos (a := i) hs hi hv
    rw [row_of_lt hi] at hr hin hval
    rcases pos_cases hr j with ⟨h1, _⟩ | ⟨_, h1, h2⟩
    · exact absurd hin h1
    · have hne : ((i, psum L i + pos j L[i]) == ((i, psum L (i + 1)) : Iter)) = false := by
        simp; omega
      rw [if_neg (by simp [hne])]
      simp only [h.colAt hi h1, Out.ok_bind, Out.pure_eq, h2, bne_self_eq_false, Bool.false_eq_true, if_false, hval]
      refine ⟨m, v, ?_, h, rfl, ?_, hv⟩
      · rw [row_of_lt hi]
      · rw [row_of_lt hi]; exact hval
  · rw [if_neg hin]
    obtain ⟨m1, b, h1, h2, h3, h4⟩ := h.insert hs (i := i) (j := j) (by omega) hj 0
    have hnew : (if (((i, psum L i + pos j L[i]) : Iter) == (i, psum L (i + 1))) then (pure true : Out Bool) else do
        let c ← m.colAt (i, psum L i + pos j L[i])
        pure (j != c)) = .ok true := by
      rw [row_of_lt hi] at hr hin
      rcases pos_cases hr j with ⟨_, h5 | ⟨h5, h6⟩⟩ | ⟨h5, _⟩
      · rw [if_pos (by simp; omega)]; rfl
      · rw [if_neg (by simp; omega), h.colAt hi h5]
        simp [Ne.symm h6]
      · exact absurd h5 hin
    have hl := lookup_insRows_self hs 0 hin
    have hil : i < (insRows i j 0 L).length := by rw [insRows_length]; omega
    have hpos : pos j (row (insRows i j 0 L) i) = pos j (row L i) := by
      rw [row_insRows, if_pos ⟨rfl, hin⟩, pos_insRow (hs i) hin]
    have hval := h2.valPos (a := i) (sorted_insRows hs i j 0) hil hl
    rw [hpos, psum_insRows] at hval
    rw [hpos, psum_insRows]
    rw [psum_pad] at h1
    rw [hnew]
    simp only [Out.ok_bind, if_true, h1, Out.pure_eq, hval]
    exact ⟨m1, 0, rfl, h2, h3, hval, hl⟩

theorem Rep.assign [Zero α] (h : m.Rep L) (hs : Sorted L) {i j : Nat} (hi : i < L.length) (hj : j < sizeMax) (v : α) :
    ∃ m', m.assign i j v = .ok m' ∧
      m'.Rep ((insRows i j 0 L).set i (setRow j v (row (insRows i j 0 L) i))) ∧
      m'.colSize = (if j ∈ keys (row L i) then m.colSize else max m.colSize (j + 1)) := by
  obtain ⟨m1, w, h1, h2, h3, h4, h5⟩ := h.ref hs hi hj
  have hil : i < (insRows i j 0 L).length := by rw [insRows_length]; omega
  have hk : j ∈ keys (row (insRows i j 0 L) i) := by
    rw [mem_keys_iff]; unfold entry; rw [h5]; simp
  obtain ⟨m2, h6, h7, h8⟩ := h2.setPos (a := i) (sorted_insRows hs i j 0) hil hk v
  unfold Sparse.assign
  rw [h1]
  simp only [Out.ok_bind, h6]
  exact ⟨m2, rfl, h8, by rw [h7, h3]⟩

theorem Rep.addAt [Zero α] [Add α] (h : m.Rep L) (hs : Sorted L) {i j : Nat} (hi : i < L.length) (hj : j < sizeMax)
    {x : α} (hx : (row L i).lookup j = some x) (v : α) :
    ∃ m', m.addAt i j v = .ok m' ∧ m'.Rep (L.set i (setRow j (x + v) (row L i))) ∧ m'.colSize = m.colSize := by
  have hk : j ∈ keys (row L i) := by rw [mem_keys_iff]; unfold entry; rw [hx]; simp
  have hI : insRows i j (0 : α) L = L := by unfold insRows; rw [if_pos hk]
  obtain ⟨m1, w, h1, h2, h3, h4, h5⟩ := h.ref hs hi hj
  rw [hI] at h1 h2 h4 h5
  rw [if_pos hk] at h3
  rw [hx] at h5
  cases h5
  obtain ⟨m2, h6, h7, h8⟩ := h2.setPos (a := i) hs hi hk (x + v)
  unfold Sparse.addAt
  rw [h1]
  simp only [Out.ok_bind, h4, h6]
  exact ⟨m2, rfl, h8, by rw [h7, h3]⟩

/-- Erasing the element at position `k` of row `i`. -/
theorem Rep.erase (h : m.Rep L) {i k : Nat} (hi : i < L.length) (hk : k < L[i].length) :
    ∃ m', m.erase false (i, psum L i + k) = .ok (m', (i, psum L i + k)) ∧
      m'.Rep (L.set i (cut L[i] k (k + 1))) ∧ m'.colSize = m.colSize := by
  have hp := psum_succ L hi
  have hlen := h.lengths
  have hpl := psum_le L (i + 1)
  have hb : (decide (i < m.sizeRow)) = true := by simp [h.sizeRow, hi]
  have hne : (i == m.sizeRow) = false := by rw [h.sizeRow]; simp; omega
  have hne2 : (((i, psum L i + k) : Iter) != (i, psum L (i + 1))) = true := by simp; omega
  have hmem : L[i][k].1 ∈ keys L[i] := List.mem_map_of_mem (f := (·.1)) (List.getElem_mem hk)
  unfold Sparse.erase
  simp only [hne, Bool.or_false, Bool.false_eq_true, if_false, Out.pure_eq, Out.ok_bind, if_true, hb, assert_true,
    h.rowEnd hi, hne2, h.colAt hi hk, h.contains hi, hmem, decide_true]
  rw [if_pos (by omega)]
  exact ⟨_, rfl, h.eraseAt hi hk, rfl⟩

/-- `erase` with the out of bounds read of its assertion counted: always undefined. -/
theorem Rep.erase_ub (h : m.Rep L) (it : Iter) : m.erase true it = .ub := by
  unfold Sparse.erase
  rw [h.sizeRow]
  simp [h.rowEnd_ub]

/-- Row without the element in column `j`. -/
def delRow (j : Nat) (r : List (Nat × α)) : List (Nat × α) := r.filter (fun x => x.1 ≠ j)

theorem cut_eq_delRow {r : List (Nat × α)} (hr : (keys r).Pairwise (· < ·)) {k : Nat} (hk : k < r.length) :
    cut r k (k + 1) = delRow r[k].1 r := by
  have hd : r = r.take k ++ r[k] :: r.drop (k + 1) := by simp
  unfold cut delRow
  generalize hx : r[k] = x at *
  generalize r.take k = T at *
  generalize r.drop (k + 1) = D at *
  subst hd
  simp only [keys, List.map_append, List.map_cons, List.pairwise_append, List.pairwise_cons] at hr
  rw [List.filter_append, List.filter_cons_of_neg (by simp), List.filter_eq_self.mpr, List.filter_eq_self.mpr]
  · intro y hy
    have := hr.2.1.1 y.1 (List.mem_map_of_mem (f := (·.1)) hy)
    simp; omega
  · intro y hy
    have := hr.2.2 y.1 (List.mem_map_of_mem (f := (·.1)) hy) x.1 (by simp)
    simp; omega

theorem lookup_filter {r : List (Nat × α)} (p : Nat → Bool) (j : Nat) :
    (r.filter (fun x => p x.1)).lookup j = if p j then r.lookup j else none := by
  induction r with
  | nil => simp
  | cons x r ih =>
    obtain ⟨k, w⟩ := x
    by_cases hk : p k = true
    · rw [List.filter_cons_of_pos (by simpa using hk), List.lookup_cons, List.lookup_cons, ih]
      by_cases hjk : j = k
      · subst hjk; simp [hk]
      · have : (j == k) = false := by simpa using hjk
        simp [this]
    · rw [List.filter_cons_of_neg (by simpa using hk), List.lookup_cons, ih]
      by_cases hjk : j = k
      · subst hjk; simp [hk]
      · have : (j == k) = false := by simpa using hjk
        simp [this]

theorem lookup_delRow {r : List (Nat × α)} (j k : Nat) :
    (delRow j r).lookup k = if k = j then none else r.lookup k := by
  unfold delRow
  have := lookup_filter (r := r) (fun x => decide (x ≠ j)) k
  rw [this]
  by_cases h : k = j <;> simp [h]

/-- The element-wise content after `resize`. -/
theorem entry_resRows (cs r c : Nat) (L : Rows α) (i j : Nat) :
    entry (resRows cs r c L) i j = if i < r ∧ (c < cs → j ≤ usub c 1) then entry L i j else none := by
  unfold entry
  rw [row_resRows]
  by_cases hi : i < r
  · rw [if_pos hi]
    by_cases hc : c < cs
    · rw [if_pos hc]
      unfold cropRow
      have := lookup_filter (r := row L i) (fun x => decide (x ≤ usub c 1)) j
      rw [this]
      simp [hi, hc]
    · rw [if_neg hc]
      simp [hi, hc]
  · rw [if_neg hi]
    simp [hi]

end Sparse
end Disa
