import Verif.Props.CsrData

/-!
# Properties C116 to C120: order, rows, iterators and elements of the new sparse matrix
-/

namespace Disa.Props

open Disa Spec Sparse

variable {α : Type}

/-! ### C116: rows visit their elements -/

theorem visit_loop {m : CsrData α} {L : Rows α} (h : m.Rep L) {i : Nat} (hi : i < L.length) (fuel : Nat) :
    ∀ (k : Nat), k ≤ L[i].length → L[i].length - k ≤ fuel → ∀ acc : List (Nat × α),
    whileFuel (fun st : ElemIter × List (Nat × α) => !(ElemIter.eq st.1 ⟨psum L (i + 1), psum L (i + 1)⟩)) (fun st => do
      let c ← st.1.iColumn m
      let x ← st.1.value m
      pure (st.1.next, st.2 ++ [(c, x)])) fuel (⟨psum L i + k, psum L i + k⟩, acc) =
        .ok (⟨psum L (i + 1), psum L (i + 1)⟩, acc ++ L[i].drop k) := by
  have hp := psum_succ L hi
  induction fuel with
  | zero =>
    intro k hk hf acc
    have hkl : k = L[i].length := by omega
    subst hkl
    rw [← hp]
    simp [whileFuel, ElemIter.eq]
  | succ fuel ih =>
    intro k hk hf acc
    by_cases hkl : k = L[i].length
    · subst hkl
      rw [← hp]
      simp [whileFuel, ElemIter.eq]
    · have hlt : k < L[i].length := by omega
      have hc := h.colAt (a := i) hi hlt
      have hv := h.valAt (a := i) hi hlt
      unfold Sparse.colAt at hc
      unfold Sparse.valAt at hv
      have hne : (ElemIter.eq ⟨psum L i + k, psum L i + k⟩ ⟨psum L (i + 1), psum L (i + 1)⟩) = false := by
        simp [ElemIter.eq]; omega
      unfold whileFuel
      simp only [hne, Bool.not_false, if_true, ElemIter.iColumn, ElemIter.value, hc, hv, Out.ok_bind, Out.pure_eq]
      have := ih (k + 1) hlt (by omega) (acc ++ [(L[i][k].1, L[i][k].2)])
      rw [show ElemIter.next ⟨psum L i + k, psum L i + k⟩ = ⟨psum L i + (k + 1), psum L i + (k + 1)⟩ from rfl]
      simp only [ElemIter.iColumn, ElemIter.value, Out.pure_eq] at this
      rw [this, List.drop_eq_getElem_cons hlt]
      simp

theorem visit_ok {m : CsrData α} {L : Rows α} (h : m.Rep L) {i : Nat} (hi : i < L.length) {fuel : Nat} (hf : L[i].length ≤ fuel) :
    visit m ⟨i, psum L i, psum L (i + 1)⟩ fuel = .ok L[i] := by
  have := visit_loop h hi fuel 0 (Nat.zero_le _) (by omega) []
  unfold visit RowView.begin' RowView.end'
  simp only [Nat.add_zero] at this
  rw [this]
  simp

theorem visitBack_loop {m : CsrData α} {L : Rows α} (h : m.Rep L) {i : Nat} (hi : i < L.length) (fuel : Nat) :
    ∀ (k : Nat), k ≤ L[i].length → k ≤ fuel → ∀ acc : List (Nat × α),
    whileFuel (fun st : ElemIter × List (Nat × α) => !(ElemIter.eq st.1 ⟨psum L i, psum L i⟩)) (fun st => do
      let it := st.1.prev
      let c ← it.iColumn m
      let x ← it.value m
      pure (it, st.2 ++ [(c, x)])) fuel (⟨psum L i + k, psum L i + k⟩, acc) =
        .ok (⟨psum L i, psum L i⟩, acc ++ (L[i].take k).reverse) := by
  induction fuel with
  | zero =>
    intro k hk hf acc
    obtain rfl : k = 0 := by omega
    simp [whileFuel, ElemIter.eq]
  | succ fuel ih =>
    intro k hk hf acc
    match k, hk, hf with
    | 0, _, _ => simp [whileFuel, ElemIter.eq]
    | k + 1, hk, hf =>
      have hlt : k < L[i].length := by omega
      have hc := h.colAt (a := i) hi hlt
      have hv := h.valAt (a := i) hi hlt
      unfold Sparse.colAt at hc
      unfold Sparse.valAt at hv
      have hne : (ElemIter.eq ⟨psum L i + (k + 1), psum L i + (k + 1)⟩ ⟨psum L i, psum L i⟩) = false := by
        simp [ElemIter.eq]
      unfold whileFuel
      have hprev : ElemIter.prev ⟨psum L i + (k + 1), psum L i + (k + 1)⟩ = ⟨psum L i + k, psum L i + k⟩ := rfl
      simp only [hne, Bool.not_false, if_true, hprev, ElemIter.iColumn, ElemIter.value, hc, hv, Out.ok_bind, Out.pure_eq]
      have := ih k (by omega) (by omega) (acc ++ [(L[i][k].1, L[i][k].2)])
      simp only [ElemIter.iColumn, ElemIter.value, Out.pure_eq] at this
      rw [this, List.take_succ_eq_append_getElem hlt, List.reverse_append, List.append_assoc]
      rfl

/-- C116: visiting a row from `begin` to `end` reads its elements once each, by increasing columns; there are as many as
`size_non_zero` says; visiting it backwards reads them in reverse. -/
theorem c116_visit [Zero α] (m : CsrData α) (hm : Reached m) (i : Nat) (hi : i < CsrData.sizeRow m) :
    ∃ view es, RowView.make m i = .ok view ∧ RowView.size m view = CsrData.sizeColumn m ∧
      RowView.sizeNonZero m view = .ok es.length ∧
      (∀ fuel, es.length ≤ fuel → visit m view fuel = .ok es ∧ visitBack m view fuel = .ok es.reverse) ∧
      (es.map (·.1)).Pairwise (· < ·) ∧ (∀ e ∈ es, e.1 < CsrData.sizeColumn m) ∧
      ∀ j x, (j, x) ∈ es ↔ csrLookup m i j = .ok (some x) := by
  obtain ⟨s, L, h1, h2, h3, h4, h5, h6⟩ := reached_agrees hm
  rw [csr_sizeRow, h1.sizeRow] at hi
  have hp := psum_succ L hi
  have hr := h2 i
  have hb := h3 i
  rw [row_of_lt hi] at hr hb
  refine ⟨_, L[i], view_make h1 hi, rfl, ?_, ?_, hr, hb, ?_⟩
  · unfold RowView.sizeNonZero
    simp only [h1.off_rd hi (Nat.le_of_lt hi), h1.off_rd hi (show i + 1 ≤ L.length from hi), Out.ok_bind, Out.pure_eq]
    have := h1.lengths
    rw [hp, usub_of_le (by omega), Nat.add_sub_cancel_left]
  · intro fuel hf
    refine ⟨visit_ok h1 hi hf, ?_⟩
    have := visitBack_loop h1 hi fuel L[i].length le_rfl hf []
    unfold visitBack RowView.begin' RowView.end'
    rw [← hp] at this
    simp only
    rw [this]
    simp
  · intro j x
    rw [csrLookup_ok h1 h2 hi, Out.ok.injEq]
    unfold entry
    rw [row_of_lt hi, lookup_eq_some hr]

example : RowView.make (⟨[0, 2, 3], [1, 3, 0], [6, 9, 8], 4⟩ : CsrData Int) 0 = .ok ⟨0, 0, 2⟩ ∧
    visit (⟨[0, 2, 3], [1, 3, 0], [6, 9, 8], 4⟩ : CsrData Int) ⟨0, 0, 2⟩ 2 = .ok [(1, 6), (3, 9)] := by decide +kernel

/-! ### C117: assigning through the elements of a row -/

/-- The row after its first `k` elements were assigned to. -/
def partly (f : Nat → α → α) (r : List (Nat × α)) (k : Nat) : List (Nat × α) :=
  (r.take k).map (fun e => (e.1, f e.1 e.2)) ++ r.drop k

theorem partly_length (f : Nat → α → α) (r : List (Nat × α)) (k : Nat) : (partly f r k).length = r.length := by
  unfold partly
  rw [List.length_append, List.length_map, List.length_take, List.length_drop]
  omega

theorem partly_get (f : Nat → α → α) (r : List (Nat × α)) {k : Nat} (hk : k < r.length) (h : k < (partly f r k).length) :
    (partly f r k)[k] = r[k] := by
  apply Option.some.inj
  rw [← List.getElem?_eq_getElem, ← List.getElem?_eq_getElem]
  unfold partly
  rw [List.getElem?_append_right (by simp)]
  simp [Nat.min_eq_left hk.le]

theorem partly_set (f : Nat → α → α) (r : List (Nat × α)) {k : Nat} (hk : k < r.length) :
    (partly f r k).set k (r[k].1, f r[k].1 r[k].2) = partly f r (k + 1) := by
  unfold partly
  have hl : ((r.take k).map fun e => (e.1, f e.1 e.2)).length = k := by simp [Nat.min_eq_left hk.le]
  rw [List.set_append_right _ _ (by omega), hl, Nat.sub_self, List.drop_eq_getElem_cons hk, List.set_cons_zero,
    List.take_succ_eq_append_getElem hk, List.map_append, List.append_assoc]
  rfl

theorem lookup_map_key (f : Nat → α → α) (r : List (Nat × α)) (j : Nat) :
    (r.map fun e => (e.1, f e.1 e.2)).lookup j = (r.lookup j).map (f j) := by
  induction r with
  | nil => rfl
  | cons x r ih =>
    obtain ⟨k, w⟩ := x
    simp only [List.map_cons, List.lookup_cons, ih]
    by_cases h : j = k
    · subst h; simp
    · rw [show (j == k) = false by simpa using h]

theorem assign_loop (f : Nat → α → α) {L : Rows α} {i : Nat} (hi : i < L.length) (c : Nat) (fuel : Nat) :
    ∀ (k : Nat), k ≤ L[i].length → L[i].length - k ≤ fuel → ∀ m : CsrData α, m.colSize = c → m.Rep (L.set i (partly f L[i] k)) →
    ∃ m', whileFuel (fun st : ElemIter × CsrData α => !(ElemIter.eq st.1 ⟨psum L (i + 1), psum L (i + 1)⟩)) (fun st => do
      let c ← st.1.iColumn st.2
      let x ← st.1.value st.2
      let m ← st.1.setValue st.2 (f c x)
      pure (st.1.next, m)) fuel (⟨psum L i + k, psum L i + k⟩, m) = .ok (⟨psum L (i + 1), psum L (i + 1)⟩, m') ∧
        m'.colSize = c ∧ m'.Rep (L.set i (L[i].map fun e => (e.1, f e.1 e.2))) := by
  have hp := psum_succ L hi
  have hend : partly f L[i] L[i].length = L[i].map fun e => (e.1, f e.1 e.2) := by simp [partly]
  induction fuel with
  | zero =>
    intro k hk hf m hm hR
    obtain rfl : k = L[i].length := by omega
    rw [← hp, ← hend]
    exact ⟨m, by simp [whileFuel, ElemIter.eq], hm, hR⟩
  | succ fuel ih =>
    intro k hk hf m hm hR
    by_cases hkl : k = L[i].length
    · subst hkl
      rw [← hp, ← hend]
      exact ⟨m, by simp [whileFuel, ElemIter.eq], hm, hR⟩
    · have hlt : k < L[i].length := by omega
      have hi' : i < (L.set i (partly f L[i] k)).length := by simpa using hi
      have hrow : (L.set i (partly f L[i] k))[i] = partly f L[i] k := by simp
      have hk' : k < (L.set i (partly f L[i] k))[i].length := by rw [hrow, partly_length]; exact hlt
      have hps : psum (L.set i (partly f L[i] k)) i = psum L i := by rw [psum_set L hi, if_pos le_rfl]
      have hget : (L.set i (partly f L[i] k))[i][k] = L[i][k] := by
        simp only [hrow]
        exact partly_get f _ hlt _
      have hc := hR.colAt (a := i) hi' hk'
      have hv := hR.valAt (a := i) hi' hk'
      obtain ⟨m1, h1, h2, h3⟩ := hR.setAt (a := i) hi' hk' (f L[i][k].1 L[i][k].2)
      rw [hps, hget] at hc hv
      rw [hps] at h1
      rw [hget, hrow, List.set_set, partly_set f _ hlt] at h3
      unfold Sparse.colAt at hc
      unfold Sparse.valAt at hv
      have hne : (ElemIter.eq ⟨psum L i + k, psum L i + k⟩ ⟨psum L (i + 1), psum L (i + 1)⟩) = false := by
        simp [ElemIter.eq]; omega
      obtain ⟨m2, g1, g2, g3⟩ := ih (k + 1) hlt (by omega) m1 (h2.trans hm) h3
      refine ⟨m2, ?_, g2, g3⟩
      unfold whileFuel
      unfold Sparse.setAt at h1
      simp only [hne, Bool.not_false, if_true, ElemIter.iColumn, ElemIter.value, ElemIter.setValue, hc, hv, Out.ok_bind]
      simp only at h1
      rw [h1]
      exact g1

/-- C117: assigning to the values of a row through its iterators changes the values of this row, nothing else. -/
theorem c117_assign [Zero α] (f : Nat → α → α) (m : CsrData α) (hm : Reached m) (i : Nat) (hi : i < CsrData.sizeRow m) :
    ∃ view m', RowView.make m i = .ok view ∧ (∀ fuel, CsrData.sizeNonZero m ≤ fuel → assignAll f m view fuel = .ok m') ∧
      RowView.make m' i = .ok view ∧ CsrData.sizeRow m' = CsrData.sizeRow m ∧ CsrData.sizeColumn m' = CsrData.sizeColumn m ∧
      CsrData.sizeNonZero m' = CsrData.sizeNonZero m ∧
      ∀ a b, a < CsrData.sizeRow m → ∃ o, csrLookup m a b = .ok o ∧ csrLookup m' a b = .ok (if a = i then o.map (f b) else o) := by
  obtain ⟨s, L, h1, h2, h3, h4, h5, h6⟩ := reached_agrees hm
  have hsz : CsrData.sizeRow m = L.length := by rw [csr_sizeRow, h1.sizeRow]
  rw [hsz] at hi
  have hp := psum_succ L hi
  have hlen := h1.lengths
  have hle := psum_le L (i + 1)
  have h0 : L.set i (partly f L[i] 0) = L := by simp [partly]
  have hloop := fun fuel (hf : CsrData.sizeNonZero m ≤ fuel) => assign_loop f hi m.colSize fuel 0 (Nat.zero_le _)
    (by unfold CsrData.sizeNonZero at hf; omega) m rfl (h0.symm ▸ h1)
  obtain ⟨m', e1, e2, e3⟩ := hloop _ le_rfl
  have hsorted : Sorted (L.set i (L[i].map fun e => (e.1, f e.1 e.2))) := by
    intro a
    by_cases ha : a = i
    · subst ha
      have := h2 a
      rw [row_of_lt hi] at this
      rw [row_of_lt (by simpa using hi)]
      simp only [List.getElem_set_self]
      simpa [keys, Function.comp_def] using this
    · have := h2 a
      unfold row at this ⊢
      rw [List.getElem?_set_ne (Ne.symm ha)]
      exact this
  have hentry : ∀ a b, entry (L.set i (L[i].map fun e => (e.1, f e.1 e.2))) a b =
      if a = i then (entry L a b).map (f b) else entry L a b := by
    intro a b
    unfold entry
    by_cases ha : a = i
    · subst ha
      rw [if_pos rfl, row_of_lt (by simpa using hi), row_of_lt hi]
      simp only [List.getElem_set_self]
      exact lookup_map_key f _ _
    · rw [if_neg ha]
      unfold row
      rw [List.getElem?_set_ne (Ne.symm ha)]
  have hi' : i < (L.set i (L[i].map fun e => (e.1, f e.1 e.2))).length := by simpa using hi
  refine ⟨_, m', view_make h1 hi, ?_, ?_, ?_, e2, ?_, ?_⟩
  · intro fuel hf
    obtain ⟨m2, g1, g2, g3⟩ := hloop fuel hf
    have hmm : m2 = m' := by
      have l1 := e3.off_eq (by intro hc; simp [hc] at hi')
      have l2 := g3.off_eq (by intro hc; simp [hc] at hi')
      cases m2; cases m'
      simp only at l1 l2 e2 g2
      have c1 := e3.cols
      have c2 := g3.cols
      have v1 := e3.vals
      have v2 := g3.vals
      simp only at c1 c2 v1 v2
      simp [l1, l2, c1, c2, v1, v2, e2, g2]
    unfold assignAll RowView.begin' RowView.end'
    simp only [Nat.add_zero] at g1
    simp only
    rw [g1, hmm]
    rfl
  · rw [view_make e3 hi', psum_set L hi, psum_set L hi, if_pos le_rfl, if_neg (by omega), List.length_map]
    congr 2
    omega
  · rw [hsz, csr_sizeRow, e3.sizeRow, List.length_set]
  · unfold CsrData.sizeNonZero
    rw [e3.lengths.1, h1.lengths.1]
    have := psum_set L hi (L[i].map fun e => (e.1, f e.1 e.2)) L.length
    rw [if_neg (by omega), List.length_map] at this
    rw [← psum_length, ← psum_length, List.length_set, this]
    have := psum_mono L (show i + 1 ≤ L.length by omega)
    omega
  · intro a b ha
    rw [hsz] at ha
    refine ⟨_, csrLookup_ok h1 h2 ha b, ?_⟩
    rw [csrLookup_ok e3 hsorted (by simpa using ha), hentry]

example : assignAll (fun c (x : Int) => x + c) (⟨[0, 2, 3], [1, 3, 0], [6, 9, 8], 4⟩ : CsrData Int) ⟨0, 0, 2⟩ 3 =
    .ok ⟨[0, 2, 3], [1, 3, 0], [7, 12, 8], 4⟩ := by decide +kernel

/-! ### C118: `lower_bound` -/

theorem elements_ok {m : CsrData α} {L : Rows α} (h : m.Rep L) :
    csrElements m = .ok ((L.zipIdx.map fun r => r.1.map fun e => (r.2, e.1, e.2)).flatten) := by
  have hl : ∀ n, n ≤ L.length → loop n (fun i l => do
      let v ← RowView.make m i
      let r ← visit m v (CsrData.sizeNonZero m)
      pure (l ++ r.map fun e => (i, e.1, e.2))) ([] : List (Nat × Nat × α)) =
        .ok (((L.take n).zipIdx.map fun r => r.1.map fun e => (r.2, e.1, e.2)).flatten) := by
    intro n
    induction n with
    | zero => intro _; simp [loop]
    | succ n ih =>
      intro hn
      have hlen := h.lengths
      have hp := psum_succ L hn
      have hle := psum_le L (n + 1)
      have hv := visit_ok h (i := n) hn (fuel := CsrData.sizeNonZero m) (by unfold CsrData.sizeNonZero; omega)
      unfold loop
      rw [ih (by omega)]
      simp only [Out.ok_bind, view_make h (i := n) hn, hv, Out.pure_eq]
      rw [List.take_succ_eq_append_getElem hn, List.zipIdx_append, List.map_append, List.flatten_append]
      simp [Nat.min_eq_left (show n ≤ L.length by omega)]
  unfold csrElements
  rw [csr_sizeRow, h.sizeRow, hl L.length le_rfl, List.take_length]

/-- C118: `lower_bound` returns the row, the column and the value of the first element that is not before the position; if there
is none it returns the end of the rows. -/
def C118 : Prop := ∀ (m : CsrData Int), Reached m → ∃ E, csrElements m = .ok E ∧ ∀ i j, ∃ r p, CsrData.lowerBound m i j = .ok (r, p, p) ∧
  (∀ q (h : q < E.length), Before (E[q].1, E[q].2.1) (i, j) ↔ q < p) ∧ (∀ h : p < E.length, r = E[p].1) ∧
  (E.length ≤ p → r = CsrData.sizeRow m)

/-- C118 fails: behind the last element of a row the result is the next row, even if it is empty. -/
theorem c118_violated : ¬ C118 := by
  intro h
  obtain ⟨E, h1, h2⟩ := h ⟨[0, 1, 1, 2], [0, 0], [5, 6], 1⟩
    ⟨[.insert 0 0 5, .insert 2 0 6], [some true, some true], by simp [CsrOp.Fits, sizeMax], by decide +kernel⟩
  obtain ⟨r, p, h3, -, h4, -⟩ := h2 0 1
  have e1 : CsrData.lowerBound (⟨[0, 1, 1, 2], [0, 0], [5, 6], 1⟩ : CsrData Int) 0 1 = .ok (1, 1, 1) := by decide +kernel
  have e2 : csrElements (⟨[0, 1, 1, 2], [0, 0], [5, 6], 1⟩ : CsrData Int) = .ok [(0, 0, 5), (2, 0, 6)] := by decide +kernel
  rw [e1, Out.ok.injEq, Prod.mk.injEq, Prod.mk.injEq] at h3
  rw [e2, Out.ok.injEq] at h1
  obtain ⟨rfl, rfl, -⟩ := h3
  subst h1
  simpa using h4 (by simp)

/-- C118: what does hold.  The elements are stored by rows and columns, columns and values are read where they are stored, and the
positions of the column and of the value are those of the first element that is not before the given one; the row is the given one if
this element is in it, the next one if not, and the end of the row offsets if there is no such row. -/
theorem c118_partial [Zero α] (m : CsrData α) (hm : Reached m) : ∃ E, csrElements m = .ok E ∧
    (E.map fun e => (e.1, e.2.1)).Pairwise Before ∧
    (∀ i j x, (i, j, x) ∈ E ↔ i < CsrData.sizeRow m ∧ csrLookup m i j = .ok (some x)) ∧
    (∀ q (h : q < E.length), ElemIter.iColumn m ⟨q, q⟩ = .ok E[q].2.1 ∧ ElemIter.value m ⟨q, q⟩ = .ok E[q].2.2) ∧
    ∀ i j, ∃ r p, CsrData.lowerBound m i j = .ok (r, p, p) ∧ p ≤ E.length ∧
      (∀ q (h : q < E.length), Before (E[q].1, E[q].2.1) (i, j) ↔ q < p) ∧
      (i < CsrData.sizeRow m → (∃ h : p < E.length, E[p].1 = i) → r = i) ∧
      (i < CsrData.sizeRow m → (¬ ∃ h : p < E.length, E[p].1 = i) → r = i + 1) ∧
      (CsrData.sizeRow m ≤ i → r = m.off.length) := by
  obtain ⟨s, L, h1, h2, h3, h4, h5, h6⟩ := reached_agrees hm
  have hsz : CsrData.sizeRow m = L.length := by rw [csr_sizeRow, h1.sizeRow]
  obtain ⟨M, hM⟩ : ∃ M, M = L.zipIdx.map fun r => r.1.map fun e => (r.2, e.1, e.2) := ⟨_, rfl⟩
  have hE := elements_ok h1
  rw [← hM] at hE
  have hMl : M.length = L.length := by simp [hM]
  have hrow : ∀ a (ha : a < L.length) (ha' : a < M.length), M[a] = L[a].map fun e => (a, e.1, e.2) := by
    intro a ha ha'
    simp only [hM, List.getElem_map, List.getElem_zipIdx, Nat.zero_add]
  have hlens : L.map List.length = M.map List.length := by
    apply List.ext_getElem (by simp [hMl])
    intro a b1 b2
    have := hrow a (by simpa using b1) (by simpa using b2)
    simp only [List.getElem_map, this, List.length_map]
  have hps : ∀ a, psum M a = psum L a := fun a => (psum_congr hlens a).symm
  have hfl : M.flatten.length = L.flatten.length := by
    rw [← psum_length, ← psum_length, hps, hMl]
  -- positions
  have hat : ∀ a (ha : a < L.length) k (hk : k < L[a].length), M.flatten[psum L a + k]? = some (a, L[a][k].1, L[a][k].2) := by
    intro a ha k hk
    have e := flatten_getElem? M (i := a) (by omega) (k := k) (by rw [hrow a ha]; simpa using hk)
    rw [hps] at e
    rw [e]
    simp only [hrow a ha, List.getElem_map]
  have hloc : ∀ q (h : q < M.flatten.length), ∃ (a : Nat) (ha : a < L.length) (k : Nat) (hk : k < L[a].length), q = psum L a + k ∧
      M.flatten[q] = (a, L[a][k].1, L[a][k].2) := by
    intro q hq
    obtain ⟨a, k, ha, hk, e⟩ := locate L (p := q) (by omega)
    refine ⟨a, ha, k, hk, e, ?_⟩
    have := hat a ha k hk
    rw [← e, List.getElem?_eq_getElem hq] at this
    exact Option.some.inj this
  refine ⟨M.flatten, hE, ?_, ?_, ?_, ?_⟩
  · rw [List.pairwise_map, List.pairwise_iff_getElem]
    intro q1 q2 b1 b2 b3
    obtain ⟨a1, ha1, k1, hk1, e1, f1⟩ := hloc q1 b1
    obtain ⟨a2, ha2, k2, hk2, e2, f2⟩ := hloc q2 b2
    rw [f1, f2]
    rcases Nat.lt_trichotomy a1 a2 with hlt | rfl | hgt
    · exact .inl hlt
    · refine .inr ⟨rfl, ?_⟩
      have := h2 a1
      rw [row_of_lt ha1] at this
      unfold keys at this
      rw [List.pairwise_map, List.pairwise_iff_getElem] at this
      exact this k1 k2 hk1 hk2 (by omega)
    · have := psum_mono L (show a2 + 1 ≤ a1 by omega)
      have := psum_succ L ha2
      omega
  · intro i j x
    rw [hsz]
    constructor
    · intro hmem
      obtain ⟨q, hq, e⟩ := List.getElem_of_mem hmem
      obtain ⟨a, ha, k, hk, e1, f1⟩ := hloc q hq
      rw [e, Prod.mk.injEq, Prod.mk.injEq] at f1
      obtain ⟨rfl, rfl, rfl⟩ := f1
      refine ⟨ha, ?_⟩
      rw [csrLookup_ok h1 h2 ha, Out.ok.injEq]
      unfold entry
      have := h2 i
      rw [row_of_lt ha] at this ⊢
      rw [lookup_eq_some this]
      exact List.getElem_mem hk
    · rintro ⟨ha, hl⟩
      rw [csrLookup_ok h1 h2 ha, Out.ok.injEq] at hl
      unfold entry at hl
      have := h2 i
      rw [row_of_lt ha] at this hl
      rw [lookup_eq_some this] at hl
      obtain ⟨k, hk, e⟩ := List.getElem_of_mem hl
      have := hat i ha k hk
      rw [e] at this
      exact List.mem_of_getElem? this
  · intro q hq
    obtain ⟨a, ha, k, hk, e1, f1⟩ := hloc q hq
    rw [f1, e1]
    exact ⟨h1.colAt (a := a) ha hk, h1.valAt (a := a) ha hk⟩
  · intro i j
    rw [hsz]
    by_cases hi : i < L.length
    · have hr := h2 i
      rw [row_of_lt hi] at hr
      obtain ⟨T, D, g1, g2, g3, g4⟩ := split_row hr j
      have hpos : ∀ k (hk : k < L[i].length), L[i][k].1 < j ↔ k < pos j L[i] := by
        intro k hk
        have hke : L[i][k]? = (T ++ D)[k]? := by rw [← g1]
        rw [List.getElem?_eq_getElem hk] at hke
        by_cases hkp : k < pos j L[i]
        · rw [List.getElem?_append_left (by omega)] at hke
          have := g3 _ (List.mem_of_getElem? hke.symm)
          exact ⟨fun _ => hkp, fun _ => this⟩
        · rw [List.getElem?_append_right (by omega)] at hke
          have := g4 _ (List.mem_of_getElem? hke.symm)
          exact ⟨fun h => by omega, fun h => absurd h hkp⟩
      have hple := pos_le j L[i]
      have hpl := psum_add_le L hi hple
      have hp := psum_succ L hi
      refine ⟨_, _, csr_lowerBound h1 h2 hi j, by omega, ?_, ?_, ?_, by omega⟩
      · intro q hq
        obtain ⟨a, ha, k, hk, e1, f1⟩ := hloc q hq
        rw [f1]
        have hpa := psum_succ L ha
        unfold Before
        simp only
        rcases Nat.lt_trichotomy a i with hlt | rfl | hgt
        · have := psum_mono L (show a + 1 ≤ i by omega)
          constructor
          · intro _; omega
          · intro _; exact .inl hlt
        · have := hpos k hk
          constructor
          · rintro (h | ⟨-, h⟩)
            · omega
            · have := this.mp h; omega
          · intro h
            exact .inr ⟨rfl, this.mpr (by omega)⟩
        · have := psum_mono L (show i + 1 ≤ a by omega)
          constructor
          · rintro (h | ⟨h, -⟩) <;> omega
          · intro h; omega
      · rintro - ⟨hq, e⟩
        obtain ⟨a, ha, k, hk, e1, f1⟩ := hloc _ hq
        rw [f1] at e
        simp only at e
        subst e
        rw [if_neg (by omega)]
      · intro _ hn
        by_cases hc : pos j L[i] = L[i].length
        · rw [if_pos hc]
        · exfalso
          apply hn
          have hk : pos j L[i] < L[i].length := by omega
          have hq : psum L i + pos j L[i] < M.flatten.length := by
            have := psum_le L (i + 1)
            omega
          refine ⟨hq, ?_⟩
          have := hat i hi _ hk
          rw [List.getElem?_eq_getElem hq] at this
          rw [Option.some.inj this]
    · refine ⟨m.off.length, m.cols.length, ?_, ?_, ?_, fun h => absurd h hi, fun h => absurd h hi, fun _ => rfl⟩
      · unfold CsrData.lowerBound
        rw [if_neg (by rw [hsz]; exact hi), h1.lengths.1, h1.lengths.2]
        rfl
      · rw [h1.lengths.1]; omega
      · intro q hq
        obtain ⟨a, ha, k, hk, e1, f1⟩ := hloc q hq
        rw [f1, h1.lengths.1]
        unfold Before
        simp only
        constructor
        · intro _; omega
        · intro _; exact .inl (by omega)

/-! ### C119: equality of elements -/

/-- C119: elements are equal if their columns and values are. -/
def C119 : Prop := ∀ (m : CsrData Int), Reached m → ∀ a b : ElemIter, ∀ ca cb xa xb, a.iColumn m = .ok ca → b.iColumn m = .ok cb →
  a.value m = .ok xa → b.value m = .ok xb → (ElemIter.eq a b = true ↔ ca = cb ∧ xa = xb)

/-- C119 fails: elements of two rows in the same column with the same value. -/
theorem c119_violated : ¬ C119 := by
  intro h
  have := h ⟨[0, 1, 2], [0, 0], [5, 5], 1⟩
    ⟨[.insert 0 0 5, .insert 1 0 5], [some true, some true], by simp [CsrOp.Fits, sizeMax], by decide +kernel⟩ ⟨0, 0⟩ ⟨1, 1⟩
    0 0 5 5 rfl rfl rfl rfl
  exact absurd (this.mpr ⟨rfl, rfl⟩) (by decide)

/-- C119: what does hold.  Elements are equal if they are the same element: those of two rows are if row and column are the same. -/
theorem c119_partial [Zero α] (m : CsrData α) (hm : Reached m) (i j i' j' : Nat) (r p r' p' : Nat) (x x' : α)
    (h1 : csrLookup m i j = .ok (some x)) (h2 : csrLookup m i' j' = .ok (some x')) (h3 : CsrData.lowerBound m i j = .ok (r, p, p))
    (h4 : CsrData.lowerBound m i' j' = .ok (r', p', p')) : (ElemIter.eq ⟨p, p⟩ ⟨p', p'⟩ = true ↔ i = i' ∧ j = j') ∧
      ElemIter.iColumn m ⟨p, p⟩ = .ok j ∧ ElemIter.value m ⟨p, p⟩ = .ok x := by
  obtain ⟨E, e1, e2, e3, e4, e5⟩ := c118_partial m hm
  have hin : ∀ i j x r p, csrLookup m i j = .ok (some x) → CsrData.lowerBound m i j = .ok (r, p, p) → i < CsrData.sizeRow m := by
    intro i j x r p g1 g2
    by_contra hc
    have g3 := g2
    unfold CsrData.lowerBound at g3
    rw [if_neg hc, Out.pure_eq, Out.ok.injEq, Prod.mk.injEq, Prod.mk.injEq] at g3
    unfold csrLookup at g1
    simp only [g2, Out.ok_bind] at g1
    split at g1
    · rw [← g3.2.1] at g1
      simp [rd] at g1
    · simp at g1
  have hpos : ∀ i j x r p, csrLookup m i j = .ok (some x) → CsrData.lowerBound m i j = .ok (r, p, p) →
      ∃ h : p < E.length, E[p] = (i, j, x) := by
    intro i j x r p g1 g2
    obtain ⟨r1, p1, f1, -, f2, -⟩ := e5 i j
    rw [g2, Out.ok.injEq, Prod.mk.injEq, Prod.mk.injEq] at f1
    obtain ⟨-, rfl, -⟩ := f1
    obtain ⟨q, hq, e⟩ := List.getElem_of_mem ((e3 i j x).mpr ⟨hin i j x r p g1 g2, g1⟩)
    have b1 : ¬ q < p := by
      rw [← f2 q hq, e]
      unfold Before
      simp
    have hpl : p < E.length := by omega
    have b2 : ¬ Before (E[p].1, E[p].2.1) (i, j) := by rw [f2 p hpl]; omega
    rcases Nat.lt_or_eq_of_le (show p ≤ q by omega) with hlt | heq
    · exfalso
      have := e2
      rw [List.pairwise_map, List.pairwise_iff_getElem] at this
      have := this p q hpl hq hlt
      rw [e] at this
      exact b2 this
    · subst heq
      exact ⟨hpl, e⟩
  obtain ⟨hp, f1⟩ := hpos i j x r p h1 h3
  obtain ⟨hp', f1'⟩ := hpos i' j' x' r' p' h2 h4
  refine ⟨?_, ?_, ?_⟩
  · unfold ElemIter.eq
    simp only [Bool.and_self, beq_iff_eq]
    constructor
    · rintro rfl
      rw [f1, Prod.mk.injEq, Prod.mk.injEq] at f1'
      exact ⟨f1'.1, f1'.2.1⟩
    · rintro ⟨rfl, rfl⟩
      rw [h3, Out.ok.injEq, Prod.mk.injEq, Prod.mk.injEq] at h4
      exact h4.2.1
  · rw [(e4 p hp).1, f1]
  · rw [(e4 p hp).2, f1]

/-! ### C120: where rows begin -/

/-- C120: `row_offset` of a row is the position of its first element. -/
def C120 : Prop := ∀ (m : CsrData Int), Reached m → ∀ i, i < CsrData.sizeRow m → ∃ view p, RowView.make m i = .ok view ∧
  view.begin' = ⟨p, p⟩ ∧ RowView.rowOffset m view = .ok p

/-- C120 fails for every row with an element. -/
theorem c120_violated : ¬ C120 := by
  intro h
  obtain ⟨view, p, h1, h2, h3⟩ := h ⟨[0, 1], [0], [5], 1⟩
    ⟨[.insert 0 0 5], [some true], by simp [CsrOp.Fits, sizeMax], by decide +kernel⟩ 0 (by decide)
  obtain rfl : (⟨0, 0, 1⟩ : RowView) = view := by
    have : RowView.make (⟨[0, 1], [0], [5], 1⟩ : CsrData Int) 0 = .ok ⟨0, 0, 1⟩ := by decide
    rw [h1, Out.ok.injEq] at this
    exact this.symm
  have e : RowView.rowOffset (⟨[0, 1], [0], [5], 1⟩ : CsrData Int) ⟨0, 0, 1⟩ = .ok 1 := by decide
  rw [e, Out.ok.injEq] at h3
  subst h3
  simp [RowView.begin'] at h2

/-- C120: what does hold.  `row_offset` is the position behind the last element of the row. -/
theorem c120_partial [Zero α] (m : CsrData α) (hm : Reached m) (i : Nat) (hi : i < CsrData.sizeRow m) :
    ∃ view p n, RowView.make m i = .ok view ∧ view.begin' = ⟨p, p⟩ ∧ view.end' = ⟨p + n, p + n⟩ ∧
      RowView.sizeNonZero m view = .ok n ∧ RowView.rowOffset m view = .ok (p + n) := by
  obtain ⟨s, L, h1, h2, h3, h4, h5, h6⟩ := reached_agrees hm
  rw [csr_sizeRow, h1.sizeRow] at hi
  have hp := psum_succ L hi
  refine ⟨_, psum L i, L[i].length, view_make h1 hi, rfl, ?_, ?_, ?_⟩
  · simp [RowView.end', hp]
  · unfold RowView.sizeNonZero
    simp only [h1.off_rd hi (Nat.le_of_lt hi), h1.off_rd hi (show i + 1 ≤ L.length from hi), Out.ok_bind, Out.pure_eq]
    rw [hp, usub_of_le (by omega), Nat.add_sub_cancel_left]
  · unfold RowView.rowOffset
    rw [h1.off_rd hi (show i + 1 ≤ L.length from hi), hp]

end Disa.Props
