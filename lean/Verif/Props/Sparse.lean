import Verif.Sparse.Built
import Mathlib.Algebra.BigOperators.Ring.Finset
import Mathlib.Algebra.Field.Basic
import Mathlib.Algebra.Field.Rat
import Mathlib.Tactic.Ring

/-!
# Properties C29 to C36 and C64 to C69: sparse matrices
-/

namespace Disa.Props

open Disa Spec Sparse

variable {α : Type}

/-! ### C29 -/

theorem mapStep_insert (f : Map α) (i j : Nat) (v : α) :
    mapStep f (.insert i j v) = if (f i j).isSome then (f, false) else (f.put i j (some v), true) := by
  simp only [mapStep]
  cases f i j <;> rfl

theorem matStep_ok [Zero α] {m : Sparse α} {L : Rows α} (h : m.Rep L) (hs : Sorted L) (hr : L.length = r)
    (hc : m.colSize = c) (hcs : c ≤ sizeMax) (op : MapOp α) (hop : op.InRange r c) :
    ∃ m' L', matStep m op = .ok (m', (mapStep (entry L) op).2) ∧ m'.Rep L' ∧ Sorted L' ∧ L'.length = r ∧ m'.colSize = c ∧
      entry L' = (mapStep (entry L) op).1 := by
  have hsm := h.small
  cases op with
  | insert i j v =>
    obtain ⟨hi, hj⟩ := hop
    obtain ⟨m1, b, h1, h2, h3, h4⟩ := h.insert hs (i := i) (j := j) (by omega) (by omega) v
    have hb : b = (mapStep (entry L) (.insert i j v)).2 := by
      rw [mem_keys_iff] at h4
      rw [mapStep_insert]
      cases he : entry L i j with
      | none => rw [he] at h4; simpa using h4
      | some x => rw [he] at h4; simpa using h4
    refine ⟨m1, _, ?_, h2, sorted_insRows hs _ _ _, by rw [insRows_length]; omega, by omega, ?_⟩
    · unfold matStep; simp only [h1, Out.ok_bind, Out.pure_eq, hb]
    · funext a b'
      rw [entry_insRows hs]
      rw [mapStep_insert]
      cases he : entry L i j with
      | none => simp [Map.put]
      | some x => simp
  | insertOrAssign i j v =>
    obtain ⟨hi, hj⟩ := hop
    obtain ⟨m1, it, b, h1, h2, h3, h4⟩ := h.insertOrAssign hs (i := i) (j := j) (by omega) (by omega) v
    have hb : b = (mapStep (entry L) (.insertOrAssign i j v)).2 := by
      rw [mem_keys_iff] at h4
      simp only [mapStep]
      cases he : entry L i j with
      | none => rw [he] at h4; simpa using h4
      | some x => rw [he] at h4; simpa using h4
    refine ⟨m1, _, ?_, h2, sorted_putRows hs _ _ _, by rw [putRows_length]; omega, by omega, ?_⟩
    · unfold matStep; simp only [h1, Out.ok_bind, Out.pure_eq, hb]
    · funext a b'
      rw [entry_putRows hs]
      rfl
  | erase i j =>
    obtain ⟨hi, hj⟩ := hop
    have hi' : i < L.length := by omega
    unfold matStep
    simp only [h.contains hi', Out.ok_bind, decide_eq_true_eq]
    rw [← row_of_lt hi']
    by_cases hk : j ∈ keys (row L i)
    · rw [if_pos hk]
      obtain ⟨m1, h1, h2, h3⟩ := eraseAt_ok h hs hi' hk
      refine ⟨m1, _, ?_, h2, sorted_del hs hi' j, by simpa using hr, by omega, ?_⟩
      · have := mem_keys_iff.mp hk
        simp only [h1, Out.ok_bind, Out.pure_eq, mapStep]
        rw [Option.isSome_iff_ne_none.mpr this]
      · funext a b
        rw [entry_del hi']
        rfl
    · rw [if_neg hk]
      have hn : entry L i j = none := by by_contra hc; exact hk (mem_keys_iff.mpr hc)
      refine ⟨m, L, ?_, h, hs, hr, hc, ?_⟩
      · simp only [Out.pure_eq, mapStep, hn, Option.isSome_none]
      · funext a b
        simp only [mapStep, Map.put]
        split
        · rename_i hab; rw [hab.1, hab.2, hn]
        · rfl

theorem matRun_ok [Zero α] (ops : List (MapOp α)) {m : Sparse α} {L : Rows α} (h : m.Rep L) (hs : Sorted L) (hr : L.length = r)
    (hc : m.colSize = c) (hcs : c ≤ sizeMax) (hop : ∀ op ∈ ops, op.InRange r c) :
    ∃ m' L', matRun m ops = .ok (m', (mapRun (entry L) ops).2) ∧ m'.Rep L' ∧ Sorted L' ∧ L'.length = r ∧ m'.colSize = c ∧
      entry L' = (mapRun (entry L) ops).1 := by
  induction ops generalizing m L with
  | nil => exact ⟨m, L, rfl, h, hs, hr, hc, rfl⟩
  | cons op ops ih =>
    obtain ⟨m1, L1, h1, h2, h3, h4, h5, h6⟩ := matStep_ok h hs hr hc hcs op (hop op (by simp))
    obtain ⟨m2, L2, k1, k2, k3, k4, k5, k6⟩ := ih h2 h3 h4 h5 (fun o ho => hop o (by simp [ho]))
    rw [h6] at k1 k6
    refine ⟨m2, L2, ?_, k2, k3, k4, k5, k6⟩
    unfold matRun mapRun
    simp only [h1, k1, Out.ok_bind, Out.pure_eq]

/-- C29: after any history of `insert`, `insert_or_assign` and `erase` with indices in range on a new matrix of any size, a
lookup sees what the finite map holds, and each call returned the flag that the finite map gives. -/
theorem c29_finite_map [Zero α] (r c : Nat) (hr : r < sizeMax) (hc : c ≤ sizeMax) (ops : List (MapOp α))
    (hop : ∀ op ∈ ops, op.InRange r c) :
    ∃ m, matRun (Sparse.sized r c) ops = .ok (m, (mapRun (fun _ _ => none) ops).2) ∧ m.sizeRow = r ∧ m.colSize = c ∧
      ∀ i j, i < r → Spec.lookup m i j = .ok ((mapRun (fun _ _ => none) ops).1 i j) := by
  have he : entry (List.replicate r ([] : List (Nat × α))) = fun _ _ => none := by
    funext i j; unfold entry; rw [row_replicate_nil]; rfl
  obtain ⟨m, L, h1, h2, h3, h4, h5, h6⟩ := matRun_ok ops (rep_sized (α := α) hr c)
    (fun i => by rw [row_replicate_nil]; exact List.Pairwise.nil) (by simp) rfl hc hop
  rw [he] at h1 h6
  exact ⟨m, h1, by rw [h2.sizeRow, h4], h5, fun i j hi => by rw [lookup_ok h2 (by omega), h6]⟩

example : ∃ m, matRun (Sparse.sized 2 3) [.insert 0 2 (5 : Int), .insert 1 1 7, .insert 0 2 6, .insertOrAssign 1 1 8,
      .erase 0 2, .erase 0 0, .insert 0 1 9] = .ok (m, [true, true, false, false, true, false, true]) ∧
    Spec.lookup m 0 1 = .ok (some 9) ∧ Spec.lookup m 0 2 = .ok none ∧ Spec.lookup m 1 1 = .ok (some 8) :=
  ⟨⟨[0, 1, 2], [1, 1], [9, 8], 3⟩, by decide +kernel⟩

/-! ### C30 -/

section
variable [Zero α] [Add α] [Neg α] [Mul α] [Div α]

/-- C30 as stated in the properties file. -/
def C30 : Prop := ∀ m : Sparse Int, Built true m → ∀ i, i < m.sizeRow →
  ∃ es, elements m i = .ok es ∧ ∀ e ∈ es, e.1 < m.colSize

/-- C30, except for the column bound: after any history of calls each row iterates over strictly increasing columns, and
`size_non_zero` is the number of elements in all rows. -/
theorem c30_invariants_partial (m : Sparse α) (h : Built true m) :
    ∃ rows : List (List (Nat × α)), rows.length = m.sizeRow ∧
      (∀ i (hi : i < rows.length), elements m i = .ok rows[i] ∧ (rows[i].map (·.1)).Pairwise (· < ·)) ∧
      m.sizeNonZero = (rows.map List.length).sum := by
  obtain ⟨L, h1, h2, h3, h4⟩ := inv_built h
  refine ⟨L, h1.sizeRow.symm, ?_, ?_⟩
  · intro i hi
    have hs := h2 i
    rw [row_of_lt hi] at hs
    refine ⟨?_, hs⟩
    rw [elements_ok h1 hi, row_of_lt hi]
  · unfold Sparse.sizeNonZero
    rw [h1.cols, List.length_map, List.length_flatten]

/-- C30, the column bound: it holds as long as `resize` is not called with zero columns on a matrix with elements. -/
theorem c30_columns_partial (m : Sparse α) (h : Built false m) (i : Nat) (hi : i < m.sizeRow) :
    ∃ es, elements m i = .ok es ∧ (es.map (·.1)).Pairwise (· < ·) ∧ ∀ e ∈ es, e.1 < m.colSize := by
  obtain ⟨L, h1, h2, h3, h4⟩ := inv_built h
  rw [h1.sizeRow] at hi
  exact ⟨_, elements_ok h1 hi, h2 i, h4 rfl i⟩

end

/-- After `resize(1, 0)` the element in column zero is still there, in a matrix without columns. -/
theorem c30_violated : ¬ C30 := by
  intro h
  have hb : Built true (⟨[0, 1], [0], [7], 0⟩ : Sparse Int) := by
    refine Built.resize (m := ⟨[0, 1], [0], [7], 1⟩) (r := 1) (c := 0) ?_ (by decide) (.inl rfl) (by decide +kernel)
    exact Built.insert (m := Sparse.sized 1 1) (i := 0) (j := 0) (v := 7) (it := (0, 0)) (b := true) (Built.sized (by decide))
      (by decide) (by decide) (by decide +kernel)
  obtain ⟨es, h1, h2⟩ := h _ hb 0 (by decide)
  have : elements (⟨[0, 1], [0], [7], 0⟩ : Sparse Int) 0 = .ok [(0, 7)] := by decide +kernel
  rw [this, Out.ok.injEq] at h1
  subst h1
  have := h2 (0, 7) (by simp)
  simp at this

/-! ### C31 -/

/-- C31 as stated in the properties file. -/
def C31 : Prop := ∀ m : Sparse Int, Built false m → ∀ i j, i < m.sizeRow → j < m.colSize →
  (∀ v, Spec.lookup m i j = .ok (some v) → m.at' i j = .ok v) ∧ (Spec.lookup m i j = .ok none → m.at' i j = .exit 1)

section
variable [Zero α] [Add α] [Neg α] [Mul α] [Div α]

/-- C31: `at` returns the stored element. -/
theorem c31_present_partial (m : Sparse α) (h : Built false m) (i j : Nat) (hi : i < m.sizeRow) (v : α)
    (hv : Spec.lookup m i j = .ok (some v)) : m.at' i j = .ok v := by
  obtain ⟨L, h1, h2, h3, h4⟩ := inv_built h
  have hi' : i < L.length := by rw [← h1.sizeRow]; exact hi
  rw [lookup_ok h1 hi', Out.ok.injEq] at hv
  have hj : j < m.colSize := bounded_entry.mp (h4 rfl) i j (by rw [hv]; simp)
  have hk : j ∈ keys L[i] := by rw [← row_of_lt hi', mem_keys_iff, hv]; simp
  have hr := h2 i
  rw [row_of_lt hi'] at hr
  obtain ⟨hp, _⟩ := set_pos_eq hr hk v
  have hcol : L[i][pos j L[i]].1 = j := by
    rcases pos_cases hr j with ⟨h1, _⟩ | ⟨_, _, h⟩
    · exact absurd hk h1
    · exact h
  have hval := h1.valPos (a := i) h2 hi' hv
  rw [row_of_lt hi'] at hval
  unfold Sparse.at' Sparse.atRef
  simp only [hi, hj, decide_true, assert_true, Out.ok_bind, h1.lowerBound h2 hi', h1.colAt hi' hp, hcol, beq_self_eq_true,
    hval, Out.pure_eq]

omit [Zero α] [Add α] [Neg α] [Mul α] [Div α] in
/-- C31: indices out of range exit. -/
theorem c31_range_partial (m : Sparse α) (i j : Nat) (hij : m.sizeRow ≤ i ∨ m.colSize ≤ j) : m.at' i j = .exit 1 := by
  unfold Sparse.at' Sparse.atRef assert
  by_cases hi : i < m.sizeRow
  · have hj : ¬ j < m.colSize := by omega
    simp [hi, hj]
  · simp [hi]

omit [Zero α] [Add α] [Neg α] [Mul α] [Div α] in
theorem lookup_none_keys {m : Sparse α} {L : Rows α} (h : m.Rep L) {i j : Nat} (hi : i < L.length)
    (hn : Spec.lookup m i j = .ok none) : j ∉ keys L[i] := by
  rw [lookup_ok h hi, Out.ok.injEq] at hn
  rw [← row_of_lt hi, mem_keys_iff, hn]; simp

omit [Zero α] [Add α] [Neg α] [Mul α] [Div α] in
theorem atRef_pos {m : Sparse α} {L : Rows α} (h : m.Rep L) (hs : Sorted L) {i j : Nat} (hi : i < L.length)
    (hj : j < m.colSize) :
    m.at' i j = (do
      let c ← m.colAt (i, psum L i + pos j L[i])
      assert (j == c)
      let _ ← m.valAt (i, psum L i + pos j L[i])
      m.valAt (i, psum L i + pos j L[i])) := by
  have hi' : i < m.sizeRow := by rw [h.sizeRow]; exact hi
  unfold Sparse.at' Sparse.atRef
  simp only [hi', hj, decide_true, assert_true, Out.ok_bind, h.lowerBound hs hi]
  cases m.colAt (i, psum L i + pos j L[i]) <;> simp

omit [Zero α] [Add α] [Neg α] [Mul α] [Div α] in
theorem pos_eq_length {r : List (Nat × α)} {j : Nat} : pos j r = r.length ↔ ∀ e ∈ r, e.1 < j := by
  rw [pos_eq]
  induction r with
  | nil => simp
  | cons x r ih =>
    by_cases hx : x.1 < j
    · rw [List.takeWhile_cons_of_pos (by simpa using hx)]
      simp only [List.length_cons, Nat.add_right_cancel_iff, ih, List.mem_cons, forall_eq_or_imp, hx, true_and]
    · rw [List.takeWhile_cons_of_neg (by simpa using hx)]
      simp [hx]

/-- C31: an absent element with an element of a larger column in its row exits. -/
theorem c31_absent_partial (m : Sparse α) (h : Built false m) (i j : Nat) (hi : i < m.sizeRow)
    (hn : Spec.lookup m i j = .ok none) (es : List (Nat × α)) (he : elements m i = .ok es) (hl : ∃ e ∈ es, j < e.1) :
    m.at' i j = .exit 1 := by
  obtain ⟨L, h1, h2, h3, h4⟩ := inv_built h
  have hi' : i < L.length := by rw [← h1.sizeRow]; exact hi
  have hk := lookup_none_keys h1 hi' hn
  rw [elements_ok h1 hi', Out.ok.injEq, row_of_lt hi'] at he
  subst he
  obtain ⟨e, he, hje⟩ := hl
  have hj : j < m.colSize := by
    have := h4 rfl i e (by rw [row_of_lt hi']; exact he)
    omega
  rw [atRef_pos h1 h2 hi' hj]
  have hr := h2 i
  rw [row_of_lt hi'] at hr
  have hp : pos j L[i] < L[i].length := by
    have := pos_le j L[i]
    have hne : pos j L[i] ≠ L[i].length := fun h => by
      have := pos_eq_length.mp h e he
      omega
    omega
  have hc : L[i][pos j L[i]].1 ≠ j := by
    intro h
    exact hk (h ▸ List.mem_map_of_mem (List.getElem_mem hp))
  simp only [h1.colAt hi' hp, Out.ok_bind]
  have : (j == L[i][pos j L[i]].1) = false := by simpa using fun h => hc h.symm
  rw [this]
  rfl

omit [Zero α] [Add α] [Neg α] [Mul α] [Div α] in
theorem psum_empty {β : Type} (L : List (List β)) {i n : Nat} (hin : i ≤ n) (hn : n ≤ L.length)
    (h : ∀ k, i ≤ k → k < n → row L k = []) : psum L n = psum L i := by
  induction n with
  | zero => have : i = 0 := by omega
            rw [this]
  | succ n ih =>
    by_cases hh : i = n + 1
    · rw [hh]
    · rw [psum_succ L (by omega), ih (by omega) (by omega) (fun k h1 h2 => h k h1 (by omega))]
      have := h n (by omega) (by omega)
      rw [row_of_lt (by omega)] at this
      rw [this]; rfl

/-- C31, what happens instead: if all columns of the row are smaller, `at` looks at the first element of the next row that
has elements.  It returns that element if the column matches. -/
theorem c31_next_row (m : Sparse α) (h : Built true m) (i j : Nat) (hj : j < m.colSize)
    (es : List (Nat × α)) (he : elements m i = .ok es) (hl : ∀ e ∈ es, e.1 < j) (n : Nat) (hin : i < n) (hn : n < m.sizeRow)
    (hbetween : ∀ k, i < k → k < n → elements m k = .ok []) (c : Nat) (v : α) (rest : List (Nat × α))
    (hnext : elements m n = .ok ((c, v) :: rest)) : m.at' i j = if c = j then .ok v else .exit 1 := by
  obtain ⟨L, h1, h2, h3, _⟩ := inv_built h
  have hn' : n < L.length := by rw [← h1.sizeRow]; exact hn
  have hi' : i < L.length := by omega
  rw [atRef_pos h1 h2 hi' hj]
  rw [elements_ok h1 hi', Out.ok.injEq, row_of_lt hi'] at he
  rw [elements_ok h1 hn', Out.ok.injEq, row_of_lt hn'] at hnext
  subst he
  have hp := pos_eq_length.mpr hl
  have hps := psum_succ L hi'
  have hpos : psum L i + pos j L[i] = psum L n + 0 := by
    rw [hp, ← hps]
    show _ = psum L n
    rw [psum_empty L (i := i + 1) (n := n) (by omega) (by omega)]
    intro k h5 h6
    have := hbetween k (by omega) h6
    rw [elements_ok h1 (by omega), Out.ok.injEq] at this
    exact this
  have h0 : 0 < L[n].length := by rw [hnext]; simp
  rw [hpos]
  have hg : L[n][0] = (c, v) := by simp [hnext]
  simp only [h1.colAt hn' h0, h1.valAt hn' h0, Out.ok_bind, hg]
  by_cases hc : c = j
  · simp [hc]
  · have : (j == c) = false := by simpa using fun h => hc h.symm
    rw [this, if_neg hc]; rfl

/-- C31, what happens instead: if all columns of the row are smaller and no row behind it has elements, `at` reads behind
the end of the storage. -/
theorem c31_last_row (m : Sparse α) (h : Built true m) (i j : Nat) (hi : i < m.sizeRow) (hj : j < m.colSize)
    (es : List (Nat × α)) (he : elements m i = .ok es) (hl : ∀ e ∈ es, e.1 < j)
    (hafter : ∀ k, i < k → k < m.sizeRow → elements m k = .ok []) : m.at' i j = .ub := by
  obtain ⟨L, h1, h2, h3, _⟩ := inv_built h
  have hi' : i < L.length := by rw [← h1.sizeRow]; exact hi
  rw [atRef_pos h1 h2 hi' hj]
  rw [elements_ok h1 hi', Out.ok.injEq, row_of_lt hi'] at he
  subst he
  have hp := pos_eq_length.mpr hl
  have hps := psum_succ L hi'
  have hpos : psum L i + pos j L[i] = L.flatten.length := by
    rw [hp, ← hps, ← psum_length, psum_empty L (i := i + 1) (n := L.length) (by omega) (by omega)]
    intro k h5 h6
    have := hafter k (by omega) (by rw [h1.sizeRow]; exact h6)
    rw [elements_ok h1 (by omega), Out.ok.injEq] at this
    exact this
  rw [hpos]
  unfold Sparse.colAt
  rw [h1.cols, rd_ub]
  · rfl
  · rw [List.length_map]

end

/-- The 2 by 2 matrix with elements at (0,0) and (1,1): `at(0, 1)` returns the element at (1,1). -/
def wrongAt : Sparse Int := ⟨[0, 1, 2], [0, 1], [5, 7], 2⟩

theorem wrongAt_built (z : Bool) : Built z wrongAt :=
  Built.ofLists (nz := [0, 1, 2]) (ix := [0, 1]) (vs := [5, 7]) (c := 2) (by decide) (by decide) (by decide +kernel)

theorem c31_violated : ¬ C31 := by
  intro h
  have := (h wrongAt (wrongAt_built _) 0 1 (by decide) (by decide)).2 (by decide +kernel)
  have h2 : wrongAt.at' 0 1 = .ok 7 := by decide +kernel
  rw [h2] at this
  cases this

example : wrongAt.at' 0 0 = .ok 5 := c31_present_partial _ (wrongAt_built _) 0 0 (by decide) 5 (by decide +kernel)
example : wrongAt.at' 1 0 = .exit 1 :=
  c31_absent_partial _ (wrongAt_built _) 1 0 (by decide) (by decide +kernel) [(1, 7)] (by decide +kernel) ⟨(1, 7), by simp, by decide⟩
example : wrongAt.at' 0 1 = .ok 7 :=
  c31_next_row _ (wrongAt_built _) 0 1 (by decide) [(0, 5)] (by decide +kernel) (by simp) 1 (by decide) (by decide)
    (fun k h1 h2 => by omega) 1 7 [] (by decide +kernel)

/-! ### C32 -/

/-- C32 as stated in the properties file, for any number of columns. -/
def C32 : Prop := ∀ m : Sparse Int, Built false m → ∀ f : Map Int, (∀ i j, i < m.sizeRow → Spec.lookup m i j = .ok (f i j)) →
  ∀ r c, r < sizeMax → ∃ m', m.resize r c = .ok m' ∧ m'.sizeRow = r ∧ m'.colSize = c ∧
    ∀ i j, i < r → Spec.lookup m' i j = .ok (if i < m.sizeRow ∧ j < c then f i j else none)

section
variable [Zero α] [Add α] [Neg α] [Mul α] [Div α]

/-- C32: for at least one column `resize` keeps exactly the elements in range. -/
theorem c32_resize_partial (m : Sparse α) (h : Built false m) (f : Map α)
    (hf : ∀ i j, i < m.sizeRow → Spec.lookup m i j = .ok (f i j)) (r c : Nat) (hr : r < sizeMax) (hc : 0 < c) :
    ∃ m', m.resize r c = .ok m' ∧ m'.sizeRow = r ∧ m'.colSize = c ∧
      ∀ i j, i < r → Spec.lookup m' i j = .ok (if i < m.sizeRow ∧ j < c then f i j else none) := by
  obtain ⟨L, h1, h2, h3, h4⟩ := inv_built h
  obtain ⟨m', h5, h6, h7⟩ := h1.resize h2 c hr
  refine ⟨m', h5, by rw [h7.sizeRow, resRows_length], h6, ?_⟩
  intro i j hi
  rw [lookup_ok h7 (by rw [resRows_length]; exact hi), entry_resRows, Out.ok.injEq]
  have hu : usub c 1 = c - 1 := usub_of_le (by omega)
  rw [hu]
  by_cases him : i < L.length
  · have hfi := hf i j (by rw [h1.sizeRow]; exact him)
    rw [lookup_ok h1 him, Out.ok.injEq] at hfi
    rw [hfi, h1.sizeRow]
    by_cases hjc : j < c
    · rw [if_pos ⟨hi, fun _ => by omega⟩, if_pos ⟨him, hjc⟩]
    · rw [if_neg (c := i < L.length ∧ j < c) (by tauto)]
      by_cases hcs : c < m.colSize
      · rw [if_neg]
        rintro ⟨_, h⟩
        have := h hcs
        omega
      · split
        · rw [← hfi]
          by_contra hne
          have := bounded_entry.mp (h4 rfl) i j hne
          omega
        · rfl
  · rw [entry_none_of_ge (by omega), if_neg (c := i < m.sizeRow ∧ j < c) (by rw [h1.sizeRow]; omega)]
    split <;> rfl

/-- C32, what happens for zero columns: the elements of the remaining rows all stay, although there is no column left. -/
theorem c32_zero (m : Sparse α) (h : Built false m) (f : Map α)
    (hf : ∀ i j, i < m.sizeRow → Spec.lookup m i j = .ok (f i j)) (r : Nat) (hr : r < sizeMax) (hcs : m.colSize ≤ sizeMax) :
    ∃ m', m.resize r 0 = .ok m' ∧ m'.sizeRow = r ∧ m'.colSize = 0 ∧
      ∀ i j, i < r → Spec.lookup m' i j = .ok (if i < m.sizeRow then f i j else none) := by
  obtain ⟨L, h1, h2, h3, h4⟩ := inv_built h
  obtain ⟨m', h5, h6, h7⟩ := h1.resize h2 0 hr
  refine ⟨m', h5, by rw [h7.sizeRow, resRows_length], h6, ?_⟩
  intro i j hi
  rw [lookup_ok h7 (by rw [resRows_length]; exact hi), entry_resRows, Out.ok.injEq]
  by_cases him : i < L.length
  · have hfi := hf i j (by rw [h1.sizeRow]; exact him)
    rw [lookup_ok h1 him, Out.ok.injEq] at hfi
    rw [hfi, h1.sizeRow, if_pos him]
    split
    · rfl
    · rename_i hn
      rw [← hfi]
      by_contra hne
      have hb := bounded_entry.mp (h4 rfl) i j (fun h => hne h.symm)
      refine hn ⟨hi, fun _ => ?_⟩
      have : usub 0 1 = sizeMax := by decide
      omega
  · rw [entry_none_of_ge (by omega), if_neg (c := i < m.sizeRow) (by rw [h1.sizeRow]; omega)]
    split <;> rfl

end

theorem c32_violated : ¬ C32 := by
  intro h
  obtain ⟨m', h1, _, _, h2⟩ := h wrongAt (wrongAt_built _)
    (fun i j => if i = 0 ∧ j = 0 then some 5 else if i = 1 ∧ j = 1 then some 7 else none) (by
      intro i j hi
      have hi : i < 2 := hi
      have : ∀ L : Rows Int, L = [[(0, 5)], [(1, 7)]] → wrongAt.Rep L := by
        rintro L rfl
        exact ⟨.inl (by decide), by decide, by decide, by decide⟩
      rw [lookup_ok (this _ rfl) hi, Out.ok.injEq]
      rcases Nat.lt_or_ge i 1 with h | h
      · have : i = 0 := by omega
        subst this
        simp only [entry, row, List.getElem?_cons_zero, Option.getD_some, lookup_cons', List.lookup_nil]
        by_cases hj : j = 0 <;> simp [hj]
      · have : i = 1 := by omega
        subst this
        simp only [entry, row, List.getElem?_cons_succ, List.getElem?_cons_zero, Option.getD_some, lookup_cons', List.lookup_nil]
        by_cases hj : j = 1 <;> simp [hj]) 2 0 (by decide)
  have he : wrongAt.resize 2 0 = .ok ⟨[0, 1, 2], [0, 1], [5, 7], 0⟩ := by decide +kernel
  rw [he, Out.ok.injEq] at h1
  subst h1
  have := h2 0 0 (by decide)
  have h3 : Spec.lookup (⟨[0, 1, 2], [0, 1], [5, 7], 0⟩ : Sparse Int) 0 0 = .ok (some 5) := by decide +kernel
  rw [h3] at this
  simp at this

/-! The hypotheses of the theorems hold for the example. -/

example : ∃ es, elements wrongAt 0 = .ok es ∧ (es.map (·.1)).Pairwise (· < ·) ∧ ∀ e ∈ es, e.1 < wrongAt.colSize :=
  c30_columns_partial wrongAt (wrongAt_built _) 0 (by decide)
example : wrongAt.sizeNonZero = 2 ∧ elements wrongAt 1 = .ok [(1, 7)] := by decide +kernel
example : (⟨[0, 1, 1], [0], [5], 2⟩ : Sparse Int).at' 0 1 = .ub :=
  c31_last_row _ (Built.ofLists (nz := [0, 1, 1]) (ix := [0]) (vs := [5]) (c := 2) (by decide) (by decide) (by decide +kernel))
    0 1 (by decide) (by decide) [(0, 5)] (by decide +kernel) (by simp)
    (fun k h1 h2 => by
      have h2 : k < 2 := h2
      have : k = 1 := by omega
      subst this
      decide +kernel)
example : ∃ m', wrongAt.resize 1 1 = .ok m' ∧ m'.sizeNonZero = 1 := ⟨⟨[0, 1], [0], [5], 1⟩, by decide +kernel⟩

end Disa.Props
