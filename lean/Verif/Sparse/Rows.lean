import Verif.Sparse.Model
import Verif.Graph.Rows

/-!
# Sparse matrices as lists of rows

A matrix stores the rows `L`; each row is a list of pairs of a column and a value.  Lookups and insertion on the flat
vectors are related to these rows.
-/

namespace Disa
namespace Sparse

variable {α : Type}

/-- The rows of a matrix. -/
abbrev Rows (α : Type) := List (List (Nat × α))

/-- The columns of a row. -/
abbrev keys (r : List (Nat × α)) : List Nat := r.map (·.1)

/-- `m` stores the rows `L`.  A default constructed or cleared matrix has an empty offset vector. -/
structure Rep (m : Sparse α) (L : Rows α) : Prop where
  offs : m.off = offs L ∨ (L = [] ∧ m.off = [])
  cols : m.cols = L.flatten.map (·.1)
  vals : m.vals = L.flatten.map (·.2)
  small : L.length < sizeMax

/-- The columns of each row are strictly increasing. -/
def Sorted (L : Rows α) : Prop := ∀ i, (keys (row L i)).Pairwise (· < ·)

/-- All columns are below `c`. -/
def Bounded (c : Nat) (L : Rows α) : Prop := ∀ i, ∀ x ∈ row L i, x.1 < c

theorem rep_new : (new : Sparse α).Rep [] := ⟨.inr ⟨rfl, rfl⟩, rfl, rfl, by simp [sizeMax]⟩

variable {m : Sparse α} {L : Rows α}

theorem Rep.sizeRow (h : m.Rep L) : m.sizeRow = L.length := by
  unfold Sparse.sizeRow
  rcases h.offs with h' | ⟨rfl, h'⟩
  · have := offs_length L
    rw [h']
    cases hc : Disa.offs L with
    | nil => rw [hc] at this; simp at this
    | cons _ _ => rw [hc] at this; simpa using this
  · simp [h']

theorem Rep.off_eq (h : m.Rep L) (hn : L ≠ []) : m.off = Disa.offs L := by
  rcases h.offs with h | ⟨h, _⟩
  · exact h
  · exact absurd h hn

theorem Rep.off_rd (h : m.Rep L) {i k : Nat} (hi : i < L.length) (hk : k ≤ L.length) : rd m.off k = .ok (psum L k) := by
  rw [h.off_eq (by rintro rfl; simp at hi), rd_of_some (offs_getElem? L hk)]

theorem Rep.lengths (h : m.Rep L) : m.cols.length = L.flatten.length ∧ m.vals.length = L.flatten.length := by
  rw [h.cols, h.vals]; simp only [List.length_map, and_self]

theorem Rep.ptr_ok (h : m.Rep L) {p : Nat} (hp : p ≤ L.flatten.length) : m.ptr p = .ok p := by
  have := h.lengths
  unfold ptr
  rw [if_pos (by omega)]

theorem wrap_succ {i n : Nat} (h : i < n) (hn : n < sizeMax) : wrap (i + 1) = i + 1 := by
  unfold wrap; unfold sizeMax at hn; exact Nat.mod_eq_of_lt (by omega)

theorem Rep.rowBegin (h : m.Rep L) {i : Nat} (hi : i < L.length) : m.rowBegin i = .ok (i, psum L i) := by
  simp [Sparse.rowBegin, h.off_rd hi (Nat.le_of_lt hi), h.ptr_ok (psum_le L i)]

theorem Rep.rowEnd (h : m.Rep L) {i : Nat} (hi : i < L.length) : m.rowEnd i = .ok (i, psum L (i + 1)) := by
  simp only [Sparse.rowEnd, wrap_succ hi h.small, h.off_rd hi hi, h.ptr_ok (psum_le L _), Out.ok_bind, Out.pure_eq]

/-- The end of the row behind the last one is read out of bounds. -/
theorem Rep.rowEnd_ub (h : m.Rep L) : m.rowEnd L.length = .ub := by
  have hs := h.small
  have : wrap (L.length + 1) = L.length + 1 := by unfold wrap; unfold sizeMax at hs; exact Nat.mod_eq_of_lt (by omega)
  unfold Sparse.rowEnd
  rw [this, rd_ub]
  · rfl
  · rcases h.offs with h' | ⟨rfl, h'⟩ <;> simp [h']

theorem flatten_getElem? {β : Type} (L : List (List β)) {i k : Nat} (hi : i < L.length) (hk : k < L[i].length) :
    L.flatten[psum L i + k]? = some L[i][k] := by
  obtain ⟨A, B, hL, rfl⟩ := row_cases L hi
  generalize hr : L[A.length] = r at hL hk
  subst hL
  simp [-List.length_flatten, List.getElem?_append_right, List.getElem?_append_left hk, hk]

theorem Rep.colAt (h : m.Rep L) {i k a : Nat} (hi : i < L.length) (hk : k < L[i].length) :
    m.colAt (a, psum L i + k) = .ok L[i][k].1 := by
  unfold Sparse.colAt
  rw [h.cols]
  exact rd_of_some (by simp only [List.getElem?_map, flatten_getElem? L hi hk, Option.map_some])

theorem Rep.valAt (h : m.Rep L) {i k a : Nat} (hi : i < L.length) (hk : k < L[i].length) :
    m.valAt (a, psum L i + k) = .ok L[i][k].2 := by
  unfold Sparse.valAt
  rw [h.vals]
  exact rd_of_some (by simp only [List.getElem?_map, flatten_getElem? L hi hk, Option.map_some])

theorem Rep.slice_keys (h : m.Rep L) {i : Nat} (hi : i < L.length) :
    slice m.cols (psum L i) (psum L (i + 1)) = .ok (keys L[i]) := by
  have hc : m.cols = (L.map (List.map (·.1))).flatten := by rw [h.cols, List.map_flatten]
  rw [hc, ← psum_map_map L (·.1), ← psum_map_map L (·.1), slice_row _ (by simpa using hi)]
  simp

/-- Position of a column in a row: the number of smaller columns. -/
def pos (j : Nat) (r : List (Nat × α)) : Nat := ((keys r).takeWhile (· < j)).length

theorem pos_le (j : Nat) (r : List (Nat × α)) : pos j r ≤ r.length := by
  have : ((keys r).takeWhile (· < j)).length ≤ (keys r).length := (List.takeWhile_sublist _).length_le
  simpa [pos] using this

theorem psum_add_le (L : Rows α) {i k : Nat} (hi : i < L.length) (hk : k ≤ L[i].length) :
    psum L i + k ≤ L.flatten.length := by
  have := psum_succ L hi
  have := psum_le L (i + 1)
  omega

theorem Rep.lowerBound (h : m.Rep L) (hs : Sorted L) {i : Nat} (hi : i < L.length) (j : Nat) :
    m.lowerBound i j = .ok (i, psum L i + pos j L[i]) := by
  have hr := hs i
  rw [row_of_lt hi] at hr
  unfold Sparse.lowerBound
  rw [if_pos (by rw [h.sizeRow]; exact hi)]
  simp only [h.off_rd hi (Nat.le_of_lt hi), h.off_rd hi hi, h.slice_keys hi, lowerBound_ok hr, Out.ok_bind, Out.pure_eq]
  rw [show ((keys L[i]).takeWhile (· < j)).length = pos j L[i] from rfl, h.ptr_ok (psum_add_le L hi (pos_le _ _))]
  rfl

theorem Rep.find (h : m.Rep L) {i : Nat} (hi : i < L.length) (j : Nat) :
    m.find i j = .ok (i, psum L i + (keys L[i]).idxOf j) := by
  unfold Sparse.find
  rw [if_pos (by rw [h.sizeRow]; exact hi)]
  simp only [h.off_rd hi (Nat.le_of_lt hi), h.off_rd hi hi, h.slice_keys hi, Out.ok_bind, Out.pure_eq]
  rw [h.ptr_ok (psum_add_le L hi _)]
  · rfl
  · have := List.idxOf_le_length (a := j) (l := keys L[i]); simpa using this

theorem Rep.contains (h : m.Rep L) {i : Nat} (hi : i < L.length) (j : Nat) :
    m.contains i j = .ok (decide (j ∈ keys L[i])) := by
  unfold Sparse.contains
  simp only [h.find hi, h.rowEnd hi, Out.ok_bind, beq_self_eq_true, if_true, Out.pure_eq]
  congr 1
  have h1 := psum_succ L hi
  by_cases hj : j ∈ keys L[i]
  · have := List.idxOf_lt_length_iff.mpr hj
    simp only [List.length_map] at this
    simp only [hj, decide_true]
    simp only [bne_iff_ne, ne_eq, Prod.mk.injEq, true_and]
    omega
  · have := List.idxOf_of_notMem hj
    simp only [List.length_map] at this
    simp [hj, h1]

/-- Rows that are not there. -/
theorem Rep.find_ub (h : m.Rep L) {i j : Nat} (hi : L.length ≤ i) : m.find i j = .ub := by
  unfold Sparse.find
  rw [if_neg (by rw [h.sizeRow]; omega), h.sizeRow, h.rowEnd_ub]

theorem Rep.lowerBound_ub (h : m.Rep L) {i j : Nat} (hi : L.length ≤ i) : m.lowerBound i j = .ub := by
  unfold Sparse.lowerBound
  rw [if_neg (by rw [h.sizeRow]; omega), h.sizeRow, h.rowEnd_ub]

theorem Rep.contains_ub (h : m.Rep L) {i j : Nat} (hi : L.length ≤ i) : m.contains i j = .ub := by
  simp [Sparse.contains, h.find_ub hi]

/-! ### Rows as finite maps -/

theorem lookup_eq_some {r : List (Nat × α)} (hr : (keys r).Pairwise (· < ·)) {j : Nat} {v : α} :
    r.lookup j = some v ↔ (j, v) ∈ r := by
  induction r with
  | nil => simp
  | cons x r ih =>
    obtain ⟨k, w⟩ := x
    simp only [keys, List.map_cons, List.pairwise_cons] at hr
    rw [List.lookup_cons]
    by_cases hjk : j = k
    · subst hjk
      have : (j, v) ∉ r := fun hm => by
        have := hr.1 j (List.mem_map_of_mem (f := (·.1)) hm); omega
      simp [this, eq_comm]
    · have : (j == k) = false := by simpa using hjk
      simp [this, ih hr.2, hjk]

theorem lookup_eq_none {r : List (Nat × α)} {j : Nat} : r.lookup j = none ↔ j ∉ keys r := by
  induction r with
  | nil => simp
  | cons x r ih =>
    obtain ⟨k, w⟩ := x
    rw [List.lookup_cons]
    by_cases hjk : j = k
    · subst hjk; simp
    · have : (j == k) = false := by simpa using hjk
      rw [this]
      simp only [ih, keys, List.map_cons, List.mem_cons, hjk, false_or]

theorem lookup_idxOf {r : List (Nat × α)} {j : Nat} (hj : j ∈ keys r) :
    ∃ h : (keys r).idxOf j < r.length, r.lookup j = some r[(keys r).idxOf j].2 := by
  induction r with
  | nil => simp at hj
  | cons x r ih =>
    obtain ⟨k, w⟩ := x
    by_cases hjk : k = j
    · subst hjk
      simp [keys]
    · have hm : j ∈ keys r := by simpa [keys, Ne.symm hjk] using hj
      obtain ⟨h1, h2⟩ := ih hm
      have h3 : (keys ((k, w) :: r)).idxOf j = (keys r).idxOf j + 1 := by
        simp only [keys, List.map_cons]
        rw [List.idxOf_cons_ne _ hjk]
      refine ⟨by rw [h3]; simpa using h1, ?_⟩
      rw [List.lookup_cons]
      have : (j == k) = false := by simpa using Ne.symm hjk
      rw [this]
      simp only [h3, h2, List.getElem_cons_succ]

theorem keys_takeWhile (r : List (Nat × α)) (j : Nat) :
    (keys r).takeWhile (· < j) = keys (r.takeWhile (fun x => x.1 < j)) := by
  simp only [keys, List.takeWhile_map]; rfl

theorem pos_eq (j : Nat) (r : List (Nat × α)) : pos j r = (r.takeWhile (fun x => x.1 < j)).length := by
  simp [pos, keys_takeWhile]

/-- A row split at a column: smaller columns before, the others behind. -/
theorem split_row {r : List (Nat × α)} (hr : (keys r).Pairwise (· < ·)) (j : Nat) :
    ∃ T D, r = T ++ D ∧ T.length = pos j r ∧ (∀ x ∈ T, x.1 < j) ∧ (∀ x ∈ D, j ≤ x.1) := by
  refine ⟨r.takeWhile (fun x => x.1 < j), r.dropWhile (fun x => x.1 < j), (List.takeWhile_append_dropWhile).symm,
    (pos_eq j r).symm, ?_, ?_⟩
  · intro x hx; simpa using mem_takeWhile_imp hx
  · intro x hx
    have hk := dropWhile_ge hr j
    apply hk
    have : (keys r).dropWhile (· < j) = keys (r.dropWhile (fun x => x.1 < j)) := by
      simp only [keys, List.dropWhile_map]; rfl
    rw [this]
    exact List.mem_map_of_mem (f := (·.1)) hx

/-- Row with a new element. -/
def insRow (j : Nat) (v : α) (r : List (Nat × α)) : List (Nat × α) := insAt r (pos j r) (j, v)

/-- Row with a changed element. -/
def setRow (j : Nat) (v : α) (r : List (Nat × α)) : List (Nat × α) := r.set (pos j r) (j, v)

/-- Is the element at the position of column `j` in column `j`? -/
theorem pos_cases {r : List (Nat × α)} (hr : (keys r).Pairwise (· < ·)) (j : Nat) :
    (j ∉ keys r ∧ (pos j r = r.length ∨ ∃ h : pos j r < r.length, r[pos j r].1 ≠ j)) ∨
    (j ∈ keys r ∧ ∃ h : pos j r < r.length, r[pos j r].1 = j) := by
  obtain ⟨T, D, h1, h2, h3, h4⟩ := split_row hr j
  generalize pos j r = p at *
  subst h1
  subst h2
  have hT : j ∉ keys T := fun h => by
    simp only [keys, List.mem_map] at h
    obtain ⟨x, hx, rfl⟩ := h
    exact absurd (h3 x hx) (by omega)
  cases D with
  | nil => left; simp at hT; simp [keys]; exact hT
  | cons x D =>
    by_cases hx : x.1 = j
    · right
      constructor
      · simp [keys, hx]
      · simp [hx]
    · left
      refine ⟨?_, .inr ⟨by simp, by simpa using hx⟩⟩
      have hD : j ∉ keys D := fun h => by
        simp only [keys, List.map_append, List.map_cons, List.pairwise_append, List.pairwise_cons] at hr
        have := hr.2.1.1 j h
        have := h4 x (by simp)
        omega
      simp only [keys, List.map_append, List.map_cons, List.mem_append, List.mem_cons, not_or]
      exact ⟨hT, fun h => hx h.symm, hD⟩

theorem mem_insRow {r : List (Nat × α)} {j : Nat} {v : α} {x : Nat × α} :
    x ∈ insRow j v r ↔ x = (j, v) ∨ x ∈ r := by
  unfold insRow insAt
  conv => rhs; rw [← List.take_append_drop (pos j r) r]
  simp only [List.mem_append, List.mem_cons]
  tauto

theorem insRow_length {r : List (Nat × α)} {j : Nat} {v : α} : (insRow j v r).length = r.length + 1 := by
  have := pos_le j r
  simp [insRow, insAt]; omega

theorem insRow_sorted {r : List (Nat × α)} (hr : (keys r).Pairwise (· < ·)) {j : Nat} {v : α} (hj : j ∉ keys r) :
    (keys (insRow j v r)).Pairwise (· < ·) := by
  have : keys (insRow j v r) = sins j (keys r) := by
    unfold insRow sins insAt
    simp [keys, pos, List.map_take, List.map_drop]
  rw [this]
  exact sins_sorted hr hj

theorem setRow_keys {r : List (Nat × α)} (hr : (keys r).Pairwise (· < ·)) {j : Nat} {v : α} (hj : j ∈ keys r) :
    keys (setRow j v r) = keys r := by
  rcases pos_cases hr j with ⟨h, _⟩ | ⟨_, h1, h2⟩
  · exact absurd hj h
  · unfold setRow keys
    rw [List.map_set]
    apply List.ext_getElem
    · simp
    · intro k hk1 hk2
      rw [List.getElem_set]
      split
      · rename_i h; subst h; simp [h2]
      · rfl

/-- A row split around an element. -/
theorem split_mem {r : List (Nat × α)} (hr : (keys r).Pairwise (· < ·)) {j : Nat} (hj : j ∈ keys r) :
    ∃ T w D, r = T ++ (j, w) :: D ∧ T.length = pos j r ∧ (∀ x ∈ T, x.1 < j) ∧ (∀ x ∈ D, j < x.1) := by
  obtain ⟨T, D, h1, h2, h3, h4⟩ := split_row hr j
  cases D with
  | nil =>
    subst h1
    simp only [keys, List.append_nil, List.mem_map] at hj
    obtain ⟨x, hx, rfl⟩ := hj
    exact absurd (h3 x hx) (by omega)
  | cons y D =>
    have hs := hr
    rw [h1] at hs
    simp only [keys, List.map_append, List.map_cons, List.pairwise_append, List.pairwise_cons] at hs
    have hy : y.1 = j := by
      rw [h1] at hj
      simp only [keys, List.map_append, List.map_cons, List.mem_append, List.mem_cons, List.mem_map] at hj
      rcases hj with ⟨x, hx, rfl⟩ | h | ⟨x, hx, rfl⟩
      · exact absurd (h3 x hx) (by omega)
      · exact h.symm
      · have := hs.2.1.1 x.1 (List.mem_map_of_mem (f := (·.1)) hx)
        have := h4 y (by simp)
        have := h4 x (by simp [hx])
        by_contra hne
        omega
    obtain ⟨a, w⟩ := y
    simp only at hy
    subst hy
    exact ⟨T, w, D, h1, h2, h3, fun x hx => hs.2.1.1 x.1 (List.mem_map_of_mem (f := (·.1)) hx)⟩

theorem setRow_eq {T D : List (Nat × α)} {j : Nat} {w v : α} (hT : ∀ x ∈ T, x.1 < j) :
    setRow j v (T ++ (j, w) :: D) = T ++ (j, v) :: D := by
  have : pos j (T ++ (j, w) :: D) = T.length := by
    rw [pos_eq, List.takeWhile_append_of_pos (by simpa using hT)]
    simp
  unfold setRow
  rw [this]
  simp

theorem insRow_eq {T D : List (Nat × α)} {j : Nat} {v : α} (hT : ∀ x ∈ T, x.1 < j) (hD : ∀ x ∈ D, j < x.1) :
    insRow j v (T ++ D) = T ++ (j, v) :: D := by
  have : pos j (T ++ D) = T.length := by
    rw [pos_eq, List.takeWhile_append_of_pos (by simpa using hT)]
    cases D with
    | nil => simp
    | cons x D =>
      have := hD x (by simp)
      rw [List.takeWhile_cons_of_neg (by simp; omega)]
      simp
  unfold insRow insAt
  rw [this]
  simp

theorem lookup_append_lt {T D : List (Nat × α)} {j : Nat} (hT : j ∉ keys T) : (T ++ D).lookup j = D.lookup j := by
  induction T with
  | nil => rfl
  | cons x T ih =>
    obtain ⟨k, w⟩ := x
    simp only [keys, List.map_cons, List.mem_cons, not_or] at hT
    rw [List.cons_append, List.lookup_cons]
    have : (j == k) = false := by simpa using hT.1
    rw [this]
    exact ih hT.2

theorem lookup_mid {T D : List (Nat × α)} {j k : Nat} {v : α} (hT : ∀ x ∈ T, x.1 < j) :
    (T ++ (j, v) :: D).lookup k = if k = j then some v else (T ++ D).lookup k := by
  induction T with
  | nil =>
    simp only [List.nil_append, List.lookup_cons]
    by_cases h : k = j
    · simp [h]
    · have : (k == j) = false := by simpa using h
      simp [h, this]
  | cons x T ih =>
    obtain ⟨a, w⟩ := x
    have ha := hT (a, w) (by simp)
    simp only at ha
    rw [List.cons_append, List.lookup_cons, List.cons_append, List.lookup_cons, ih fun x hx => hT x (by simp [hx])]
    by_cases hk : k = a
    · subst hk
      rw [if_neg (by omega)]
      simp
      omega
    · have : (k == a) = false := by simpa using hk
      simp [this]

theorem lookup_insRow {r : List (Nat × α)} (hr : (keys r).Pairwise (· < ·)) {j k : Nat} {v : α} (hj : j ∉ keys r) :
    (insRow j v r).lookup k = if k = j then some v else r.lookup k := by
  obtain ⟨T, D, h1, h2, h3, h4⟩ := split_row hr j
  subst h1
  rw [insRow_eq h3, lookup_mid h3]
  intro x hx
  have := h4 x hx
  have : x.1 ≠ j := fun h => hj (by
    simp only [keys, List.mem_map, List.mem_append]
    exact ⟨x, .inr hx, h⟩)
  omega

theorem lookup_setRow {r : List (Nat × α)} (hr : (keys r).Pairwise (· < ·)) {j k : Nat} {v : α} (hj : j ∈ keys r) :
    (setRow j v r).lookup k = if k = j then some v else r.lookup k := by
  obtain ⟨T, w, D, h1, h2, h3, h4⟩ := split_mem hr hj
  subst h1
  rw [setRow_eq h3, lookup_mid h3, lookup_mid h3]
  by_cases h : k = j <;> simp [h]

/-! ### Changing one row -/

theorem keys_flatten (L : Rows α) : L.flatten.map (·.1) = (L.map keys).flatten := by rw [List.map_flatten]

theorem vals_flatten (L : Rows α) : L.flatten.map (·.2) = (L.map (List.map (·.2))).flatten := by rw [List.map_flatten]

theorem offs_bump {β : Type} (L : List (List β)) {i : Nat} (hi : i < L.length) (r : List β) (f : Nat → Nat)
    (hf : ∀ j, i < j → j ≤ L.length → f (psum L j) = psum (L.set i r) j) :
    (Disa.offs L).take (i + 1) ++ ((Disa.offs L).drop (i + 1)).map f = Disa.offs (L.set i r) := by
  rw [offs_eq_iff]
  constructor
  · simp; omega
  · intro j hj
    simp only [List.length_set] at hj
    by_cases hji : j ≤ i
    · rw [List.getElem?_append_left (by simp; omega), List.getElem?_take_of_lt (by omega), offs_getElem? L hj,
        psum_set L hi, if_pos hji]
    · have hl : ((Disa.offs L).take (i + 1)).length = i + 1 := by simp; omega
      rw [List.getElem?_append_right (by omega), hl, List.getElem?_map, List.getElem?_drop,
        show i + 1 + (j - (i + 1)) = j by omega, offs_getElem? L hj, Option.map_some, hf j (by omega) hj]

theorem Rep.insertAt (h : m.Rep L) {i k : Nat} (hi : i < L.length) (hk : k ≤ L[i].length) (j : Nat) (v : α) :
    Rep { m with
      off := m.off.take (i + 1) ++ (m.off.drop (i + 1)).map (· + 1)
      cols := insAt m.cols (psum L i + k) j
      vals := insAt m.vals (psum L i + k) v } (L.set i (insAt L[i] k (j, v))) := by
  refine ⟨.inl ?_, ?_, ?_, by simpa using h.small⟩
  · simp only
    rw [h.off_eq (by rintro rfl; simp at hi)]
    apply offs_bump L hi
    intro a ha1 ha2
    rw [psum_set L hi, if_neg (by omega)]
    have h1 := psum_succ L hi
    have h2 := psum_mono L (show i + 1 ≤ a by omega)
    have h3 : (insAt L[i] k (j, v)).length = L[i].length + 1 := by simp [insAt]; omega
    omega
  · simp only
    rw [← insAt_flatten L hi hk, h.cols]
    simp [insAt, List.map_take, List.map_drop]
  · simp only
    rw [← insAt_flatten L hi hk, h.vals]
    simp [insAt, List.map_take, List.map_drop]

theorem Rep.eraseAt (h : m.Rep L) {i k : Nat} (hi : i < L.length) (hk : k < L[i].length) :
    Rep { m with
      off := m.off.take (i + 1) ++ (m.off.drop (i + 1)).map (usub · 1)
      cols := cut m.cols (psum L i + k) (psum L i + k + 1)
      vals := cut m.vals (psum L i + k) (psum L i + k + 1) } (L.set i (cut L[i] k (k + 1))) := by
  refine ⟨.inl ?_, ?_, ?_, by simpa using h.small⟩
  · simp only
    rw [h.off_eq (by rintro rfl; simp at hi)]
    apply offs_bump L hi
    intro a ha1 ha2
    rw [psum_set L hi, if_neg (by omega)]
    have h1 := psum_succ L hi
    have h2 := psum_mono L (show i + 1 ≤ a by omega)
    have h3 : (cut L[i] k (k + 1)).length = L[i].length - 1 := by simp [cut]; omega
    rw [usub_of_le (by omega)]
    omega
  · simp only
    rw [Nat.add_assoc, ← cut_flatten L hi (Nat.le_succ k) hk, h.cols]
    simp [cut, List.map_take, List.map_drop]
  · simp only
    rw [Nat.add_assoc, ← cut_flatten L hi (Nat.le_succ k) hk, h.vals]
    simp [cut, List.map_take, List.map_drop]

theorem flatten_set_elem {β : Type} (L : List (List β)) {i k : Nat} (hi : i < L.length) (hk : k < L[i].length) (x : β) :
    L.flatten.set (psum L i + k) x = (L.set i (L[i].set k x)).flatten := by
  obtain ⟨A, B, hL, rfl⟩ := row_cases L hi
  generalize hr : L[A.length] = r at hL hk ⊢
  subst hL
  simp [-List.length_flatten, List.set_append_right, List.set_append_left, hk]

theorem Rep.setAt (h : m.Rep L) {i k a : Nat} (hi : i < L.length) (hk : k < L[i].length) (v : α) :
    ∃ m', m.setAt (a, psum L i + k) v = .ok m' ∧ m'.colSize = m.colSize ∧
      m'.Rep (L.set i (L[i].set k (L[i][k].1, v))) := by
  have hlen := h.lengths
  have hle := psum_succ L hi
  have hle2 := psum_le L (i + 1)
  refine ⟨{ m with vals := m.vals.set (psum L i + k) v }, ?_, rfl, ?_⟩
  · unfold Sparse.setAt
    rw [wr_ok (by simp only; omega)]
    rfl
  · refine ⟨.inl ?_, ?_, ?_, by simpa using h.small⟩
    · simp only
      rw [h.off_eq (by rintro rfl; simp at hi)]
      have := offs_bump L hi (L[i].set k (L[i][k].1, v)) id (fun j hj _ => by
        rw [psum_set L hi, if_neg (by omega)]
        have := psum_mono L (show i + 1 ≤ j by omega)
        simp only [List.length_set, id]; omega)
      rw [← this, List.map_id, List.take_append_drop]
    · simp only
      rw [← flatten_set_elem L hi hk, List.map_set, h.cols]
      apply List.ext_getElem (by simp only [List.length_set])
      intro b h1 h2
      rw [List.getElem_set]
      split
      · rename_i hb
        subst hb
        have := flatten_getElem? L hi hk
        obtain ⟨_, he⟩ := List.getElem?_eq_some_iff.mp this
        simp only [List.getElem_map, he]
      · rfl
    · simp only
      rw [← flatten_set_elem L hi hk, List.map_set, h.vals]

end Sparse
end Disa
