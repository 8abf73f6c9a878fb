import Verif.Sparse.OwnIndex
import Verif.Sparse.Built
import Mathlib.Algebra.Field.Rat

/-!
# Property C141: index arguments that refer to the matrix itself
-/

namespace Disa.Props

open Disa Spec Sparse

variable {α : Type}

/-- The iterator `it` is at the element of row `a` and column `c`. -/
def At (m : Sparse α) (a c : Nat) (it : Iter) : Prop :=
  (∃ v, Spec.lookup m a c = .ok (some v)) ∧ m.find a c = .ok it

/-- C141 as stated in the properties file: `insert` and `resize` do the same with the reference that `i_column` returns as
with a copy of it, if there is room for one more element. -/
def C141 : Prop := ∀ m : Sparse Int, Built false m → ∀ a c it, At m a c it → c + 1 < sizeMax →
  (∀ j v, j < sizeMax → m.insertOwn true it.2 j v = m.insert c j v) ∧
  (∀ n, m.resizeOwnRow it.2 n = m.resize c n) ∧
  (∀ r, r < sizeMax → m.resizeOwnColumn r it.2 = m.resize r c)

theorem at_rep {m : Sparse α} {L : Rows α} (h : m.Rep L) {a c : Nat} {it : Iter} (hat : At m a c it) :
    ∃ ha : a < L.length, ∃ k, ∃ hk : k < L[a].length, it = (a, psum L a + k) ∧ L[a][k].1 = c ∧ rd m.cols it.2 = .ok c := by
  obtain ⟨⟨v, hv⟩, hf⟩ := hat
  have ha : a < L.length := by
    by_contra hc
    rw [h.find_ub (by omega)] at hf
    cases hf
  rw [lookup_ok h ha, Out.ok.injEq] at hv
  have hk : c ∈ keys L[a] := by rw [← row_of_lt ha, mem_keys_iff, hv]; simp
  rw [h.find ha, Out.ok.injEq] at hf
  have hlt := List.idxOf_lt_length_iff.mpr hk
  have hlt' : (keys L[a]).idxOf c < L[a].length := by simpa using hlt
  have hg : L[a][(keys L[a]).idxOf c].1 = c := by
    have := List.getElem_idxOf hlt
    rwa [List.getElem_map] at this
  subst hf
  refine ⟨ha, _, hlt', rfl, hg, ?_⟩
  have := h.colAt (a := a) ha hlt'
  rw [hg] at this
  exact this

theorem pos_gt {r : List (Nat × α)} (hr : (keys r).Pairwise (· < ·)) {k j : Nat} (hk : k < r.length) (h : r[k].1 < j) :
    k < pos j r := by
  rw [pos_eq]
  induction r generalizing k with
  | nil => simp at hk
  | cons x r ih =>
    have hr' := List.pairwise_cons.mp hr
    have hx : x.1 < j := by
      cases k with
      | zero => exact h
      | succ k =>
        have hk' : k < r.length := by simpa using hk
        have : x.1 < r[k].1 := hr'.1 r[k].1 (List.mem_map_of_mem (List.getElem_mem hk'))
        simp only [List.getElem_cons_succ] at h
        omega
    rw [List.takeWhile_cons_of_pos (by simpa using hx), List.length_cons]
    cases k with
    | zero => omega
    | succ k => have := ih hr'.2 (k := k) (by simpa using hk) h; omega

theorem pos_le_of {r : List (Nat × α)} {k j : Nat} (hk : k < r.length) (h : j ≤ r[k].1) : pos j r ≤ k := by
  rw [pos_eq]
  by_contra hc
  have hlt : k < (r.takeWhile (fun x => decide (x.1 < j))).length := by omega
  have h1 : (r.takeWhile (fun x => decide (x.1 < j)))[k] = r[k] := by
    have := List.IsPrefix.getElem (List.takeWhile_prefix (fun x : Nat × α => decide (x.1 < j)) (l := r)) hlt
    exact this
  have := List.all_eq_true.mp (List.all_takeWhile (l := r) (p := fun x => decide (x.1 < j))) _ (List.getElem_mem hlt)
  rw [h1] at this
  simp at this
  omega

section
variable [Zero α] [Add α] [Neg α] [Mul α] [Div α]

/-- C141, the column: whatever the matrix and the element are, `resize(r, iter.i_column())` is undefined or leaves an
element in a column that the matrix no longer has. -/
theorem c141_column {z : Bool} (m : Sparse α) (h : Built z m) (r p : Nat) (hr : r < sizeMax) (m' : Sparse α)
    (hm : m.resizeOwnColumn r p = .ok m') :
    m'.sizeRow = r ∧ ∃ i es, i < m'.sizeRow ∧ elements m' i = .ok es ∧ ∃ e ∈ es, e.1 = m'.colSize := by
  obtain ⟨L, h1, h2, _, _⟩ := inv_built h
  obtain ⟨m1, e1, r1, _⟩ := h1.resize_rows hr
  have hs1 : Sorted (pad (L.take r) r) := by
    intro i
    rw [row_pad_take]
    split
    · exact h2 i
    · simp [keys]
  have hlen : (pad (L.take r) r).length = r := by simp [pad_length]
  have key : m.resizeOwnColumn r p = (do
      let m ← (do
        let m ← (if r < m.sizeRow then do
          let o ← rd m.off r
          pure { m with cols := resizeList m.cols o 0, vals := resizeList m.vals o 0 }
          else pure m)
        (pure { m with off := resizeList m.off (wrap (r + 1)) (if m.off.isEmpty then 0 else m.off.getLastD 0) } :
          Out (Sparse α)))
      let c ← rd m.cols p
      let m ← (if c < m.colSize then do
        let (m, _) ← loop m.sizeRow (fun i st => do
          let c ← rd st.1.cols p
          resizeBody c i st) (m, 0)
        pure m
        else pure m)
      let c ← rd m.cols p
      pure { m with colSize := c }) := by
    unfold Sparse.resizeOwnColumn
    rw [bind_assoc]
    rfl
  rw [key, e1] at hm
  simp only [Out.ok_bind, Out.bind_eq_ok] at hm
  obtain ⟨c, _, m2, h3, c', h4, h5⟩ := hm
  have hrep : ∃ M : Rows α, M.length = r ∧ m2.Rep M := by
    by_cases hc : c < m1.colSize
    · rw [if_pos hc] at h3
      obtain ⟨st, h6, h7⟩ := Out.bind_eq_ok.mp h3
      by_cases hr0 : r = 0
      · have h0 : m1.sizeRow = 0 := by rw [r1.sizeRow, hlen, hr0]
        rw [h0] at h6
        simp only [loop, Out.ok.injEq] at h6
        subst h6
        simp only [Out.pure_eq, Out.ok.injEq] at h7
        subst h7
        exact ⟨_, hlen, r1⟩
      · have hI := loop_inv_of_ok (fun i st => ∃ M : Rows α, CropAt M i st ∧ Sorted M ∧ M.length = r)
          ⟨_, CropAt.init r1 (by intro h0; rw [h0] at hlen; exact hr0 hlen.symm), hs1, hlen⟩
          (fun i s s' hi hI hb => by
            obtain ⟨M, k1, k2, k3⟩ := hI
            rw [r1.sizeRow, hlen] at hi
            obtain ⟨d, _, k5⟩ := Out.bind_eq_ok.mp hb
            have hiM : i < M.length := by omega
            have hrow := k2 i
            rw [row_of_lt hiM] at hrow
            obtain ⟨s1, k6, k7⟩ := crop_step (c := d) hiM hrow k1
            rw [k5, Out.ok.injEq] at k6
            subst k6
            refine ⟨_, k7, ?_, by simpa using k3⟩
            intro b
            rw [row_set hiM]
            split
            · exact List.Pairwise.sublist (List.Sublist.map _ List.filter_sublist) hrow
            · exact k2 b) h6
        obtain ⟨M, k1, _, k3⟩ := hI
        rw [r1.sizeRow, hlen, ← k3] at k1
        simp only [Out.pure_eq, Out.ok.injEq] at h7
        subst h7
        exact ⟨M, k3, k1.rep (by omega)⟩
    · rw [if_neg hc] at h3
      simp only [Out.pure_eq, Out.ok.injEq] at h3
      subst h3
      exact ⟨_, hlen, r1⟩
  obtain ⟨M, hM, hrep⟩ := hrep
  simp only [Out.pure_eq, Out.ok.injEq] at h5
  have hrep' : m'.Rep M := by
    subst h5
    exact ⟨hrep.offs, hrep.cols, hrep.vals, hrep.small⟩
  have hcol : rd m'.cols p = .ok m'.colSize := by
    subst h5
    exact h4
  have hp : p < M.flatten.length := by
    have := hrep'.lengths.1
    by_contra hc
    rw [rd_ub (by omega)] at hcol
    cases hcol
  obtain ⟨i, k, hi, hk, he⟩ := locate M hp
  have hc := hrep'.colAt (a := i) hi hk
  rw [show m'.colAt (i, psum M i + k) = rd m'.cols p by rw [he]; rfl, hcol, Out.ok.injEq] at hc
  refine ⟨by rw [hrep'.sizeRow, hM], i, _, by rw [hrep'.sizeRow]; exact hi, elements_ok hrep' hi, M[i][k], ?_, hc.symm⟩
  rw [row_of_lt hi]
  exact List.getElem_mem hk

/-- C141, the column: `resize(r, iter.i_column())` never does what `resize` does with a copy of the column, unless that is
zero. -/
theorem c141_column_never (m : Sparse α) (h : Built false m) (r a c : Nat) (it : Iter) (hr : r < sizeMax)
    (_ : At m a c it) (hc : 0 < c) : m.resizeOwnColumn r it.2 ≠ m.resize r c := by
  intro heq
  obtain ⟨L, h1, h2, h3, h4⟩ := inv_built h
  obtain ⟨m', h5, h6, h7⟩ := h1.resize h2 c hr
  rw [h5] at heq
  obtain ⟨hrow, i, es, hi, he, e, hee, hec⟩ := c141_column m h r it.2 hr m' heq
  have hb : Built false m' := Built.resize h hr (.inr (.inl hc)) h5
  obtain ⟨L', k1, _, _, k4⟩ := inv_built hb
  rw [k1.sizeRow] at hi
  rw [elements_ok k1 hi, Out.ok.injEq] at he
  have := k4 rfl i e (by rw [he]; exact hee)
  omega

/-- C141, the row: `resize(iter.i_column(), n)` works as with a copy if the row of the element is kept or if no row is
removed.  Otherwise it reads the column of an element that is gone. -/
theorem c141_row {z : Bool} (m : Sparse α) (h : Built z m) (a c n : Nat) (it : Iter) (hat : At m a c it) :
    m.resizeOwnRow it.2 n = if a < c ∨ m.sizeRow ≤ c then m.resize c n else .ub := by
  obtain ⟨L, h1, h2, _, _⟩ := inv_built h
  obtain ⟨ha, k, hk, hit, _, hcol⟩ := at_rep h1 hat
  have hps := psum_succ L ha
  have hpl := psum_le L (a + 1)
  have hlen := h1.lengths.1
  unfold Sparse.resizeOwnRow Sparse.resize
  rw [hcol, Out.ok_bind]
  by_cases hc : c < m.sizeRow
  · have hcL : c < L.length := by rw [← h1.sizeRow]; exact hc
    have hco := psum_le L c
    simp only [if_pos hc, h1.off_rd ha (Nat.le_of_lt hcL), Out.ok_bind]
    have hres : resizeList m.cols (psum L c) 0 = m.cols.take (psum L c) := by
      unfold resizeList
      rw [Nat.sub_eq_zero_of_le (by rw [hlen]; exact hco)]
      simp
    by_cases hac : a < c
    · have hmono := psum_mono L (i := a + 1) (j := c) (by omega)
      have hp : it.2 < psum L c := by rw [hit]; show psum L a + k < _; omega
      have hcol' : rd (resizeList m.cols (psum L c) 0) it.2 = .ok c := by
        rw [hres]
        unfold rd at hcol ⊢
        rw [List.getElem?_take_of_lt hp]
        exact hcol
      rw [if_pos (.inl hac)]
      simp only [hcol', h1.off_rd ha (Nat.le_of_lt hcL), Out.ok_bind, Out.pure_eq]
    · have hmono := psum_mono L (i := c) (j := a) (by omega)
      have hp : psum L c ≤ it.2 := by rw [hit]; show _ ≤ psum L a + k; omega
      rw [if_neg (by omega), hres, rd_ub (by rw [List.length_take]; omega)]
      rfl
  · rw [if_pos (show a < c ∨ m.sizeRow ≤ c from .inr (by omega))]
    simp only [if_neg hc, Out.pure_eq, Out.ok_bind, hcol]

omit [Add α] [Neg α] [Mul α] [Div α] in
theorem insertOwn_rep {m : Sparse α} {L : Rows α} (h1 : m.Rep L) (h2 : Sorted L) {a c j k : Nat} {v : α} {it : Iter}
    (ha : a < L.length) (hk : k < L[a].length) (hcol : rd m.cols it.2 = .ok c) (hc : c + 1 < sizeMax) (hj : j < sizeMax) :
    ∃ m' q b x, m.insert c j v = .ok (m', (c, q), b) ∧ m.insertOwn true it.2 j v = .ok (m', (x, q), b) ∧
      (b = false → x = c) ∧ (b = true → m'.colAt it = .ok x ∧ m'.cols = insAt m.cols q j) ∧
      q = psum L c + pos j (row L c) ∧ (b = true ↔ j ∉ keys (row L c)) := by
  obtain ⟨m1, m2, e1, e2, _, r2, _⟩ := h1.grow h2 hc hj
  have hcols : m2.cols = m.cols := by rw [r2.cols, h1.cols]; simp [pad]
  have hil : c < (pad L (c + 1)).length := by simp
  have hcore := r2.insertCore (sorted_pad h2 (c + 1)) hil j v
  have hi : m.insert c j v = m2.insertCore c j v := by
    unfold Sparse.insert
    rw [e1, Out.ok_bind, e2, Out.ok_bind]
  have ho : m.insertOwn true it.2 j v = (do
      let (m, it', b) ← m2.insertCore c j v
      if b then
        let i ← rd m.cols it.2
        pure (m, (i, it'.2), b)
      else pure (m, it', b)) := by
    unfold Sparse.insertOwn
    rw [hcol, Out.ok_bind, e1, Out.ok_bind, e2, Out.ok_bind, hcols, hcol, Out.ok_bind]
    rfl
  have hrow : (pad L (c + 1))[c] = row L c := by rw [← row_of_lt hil, row_pad]
  have hq' : psum (pad L (c + 1)) c + pos j (pad L (c + 1))[c] = psum L c + pos j (row L c) := by rw [hrow, psum_pad]
  by_cases hin : j ∈ keys (pad L (c + 1))[c]
  · have := hcore.1 hin
    rw [this] at hi ho
    exact ⟨m2, _, false, c, hi, ho, fun _ => rfl, by simp, hq', by rw [← hrow]; simp [hin]⟩
  · obtain ⟨m', k1, k2, k3⟩ := hcore.2 hin
    have hins : m'.cols = insAt m.cols (psum (pad L (c + 1)) c + pos j (pad L (c + 1))[c]) j := by
      rw [k2.cols, ← hcols, r2.cols]
      have hpl := pos_le j (pad L (c + 1))[c]
      have h6 := (r2.insertAt hil hpl j v).cols
      rw [← k2.cols] at *
      unfold Sparse.insertCore at k1
      simp only [r2.lowerBound (sorted_pad h2 (c + 1)) hil, Out.ok_bind, Out.bind_eq_ok] at k1
      obtain ⟨_, _, _, _, nw, _, k1⟩ := k1
      cases nw
      · simp at k1
      · simp only [if_true, Out.pure_eq, Out.ok.injEq, Prod.mk.injEq] at k1
        rw [← k1.1, r2.cols]
    rw [k1] at hi ho
    have hq : it.2 < m'.cols.length := by
      have hl := h1.lengths.1
      have := psum_add_le L ha (Nat.le_of_lt hk)
      have h3 : it.2 < m.cols.length := by
        by_contra hcon
        rw [rd_ub (by omega)] at hcol
        cases hcol
      rw [hins]
      simp only [insAt, List.length_append, List.length_take, List.length_cons, List.length_drop]
      omega
    have hx : rd m'.cols it.2 = .ok m'.cols[it.2] := rd_of_some (by simp [hq])
    refine ⟨m', _, true, m'.cols[it.2], hi, ?_, by simp, fun _ => ⟨hx, hins⟩, hq', by rw [← hrow]; simp [hin]⟩
    rw [ho]
    simp only [Out.ok_bind, if_true, hx, Out.pure_eq]

/-- C141, insertion: the matrix, the position and the flag are as with a copy of the column.  The row of the returned
iterator is right if nothing was inserted; otherwise it is the column that `iter` shows after the insertion. -/
theorem c141_insert {z : Bool} (m : Sparse α) (h : Built z m) (a c j : Nat) (v : α) (it : Iter) (hat : At m a c it)
    (hc : c + 1 < sizeMax) (hj : j < sizeMax) :
    ∃ m' q b x, m.insert c j v = .ok (m', (c, q), b) ∧ m.insertOwn true it.2 j v = .ok (m', (x, q), b) ∧
      (b = false → x = c) ∧ (b = true → m'.colAt it = .ok x) := by
  obtain ⟨L, h1, h2, _, _⟩ := inv_built h
  obtain ⟨ha, k, hk, _, _, hcol⟩ := at_rep h1 hat
  obtain ⟨m', q, b, x, k1, k2, k3, k4, _⟩ := insertOwn_rep (v := v) h1 h2 ha hk hcol hc hj
  exact ⟨m', q, b, x, k1, k2, k3, fun hb => (k4 hb).1⟩

/-- C141, insertion without room for one more element: undefined, if there is something to insert. -/
theorem c141_full {z : Bool} (m : Sparse α) (h : Built z m) (a c j : Nat) (v : α) (it : Iter) (hat : At m a c it)
    (hc : c + 1 < sizeMax) (hj : j < sizeMax) (m' : Sparse α) (it' : Iter) (hm : m.insert c j v = .ok (m', it', true)) :
    m.insertOwn false it.2 j v = .ub := by
  obtain ⟨L, h1, h2, _, _⟩ := inv_built h
  obtain ⟨ha, k, hk, hit, _, hcol⟩ := at_rep h1 hat
  obtain ⟨m1, m2, e1, e2, _, r2, _⟩ := h1.grow h2 hc hj
  have hcols : m2.cols = m.cols := by rw [r2.cols, h1.cols]; simp [pad]
  unfold Sparse.insert at hm
  rw [e1, Out.ok_bind, e2, Out.ok_bind] at hm
  unfold Sparse.insertOwn
  rw [hcol, Out.ok_bind, e1, Out.ok_bind, e2, Out.ok_bind, hcols, hcol, Out.ok_bind, hm, Out.ok_bind]
  rfl

/-- C141 for elements above the diagonal, and for elements on the diagonal if the new one is to their right: `insert` with
the reference does the same as with a copy. -/
theorem c141_insert_partial {z : Bool} (m : Sparse α) (h : Built z m) (a c j : Nat) (v : α) (it : Iter) (hat : At m a c it)
    (hc : c + 1 < sizeMax) (hj : j < sizeMax) (hac : a < c ∨ (a = c ∧ c < j)) :
    m.insertOwn true it.2 j v = m.insert c j v := by
  obtain ⟨L, h1, h2, _, _⟩ := inv_built h
  obtain ⟨ha, k, hk, hit, hkc, hcol⟩ := at_rep h1 hat
  obtain ⟨m', q, b, x, k1, k2, k3, k4, k5, _⟩ := insertOwn_rep (v := v) h1 h2 ha hk hcol hc hj
  rw [k1, k2]
  cases b with
  | false => rw [k3 rfl]
  | true =>
    obtain ⟨k4, k6⟩ := k4 rfl
    have hpq : it.2 < q := by
      rw [hit, k5]
      show psum L a + k < _
      rcases hac with hac | ⟨rfl, hac⟩
      · have := psum_succ L ha
        have := psum_mono L (i := a + 1) (j := c) (by omega)
        omega
      · rw [row_of_lt ha]
        have hr := h2 a
        rw [row_of_lt ha] at hr
        have : k < pos j L[a] := pos_gt hr hk (by omega)
        omega
    have : x = c := by
      unfold Sparse.colAt at k4
      rw [k6] at k4
      unfold rd insAt at k4
      have hl : it.2 < m.cols.length := by
        by_contra hcon
        rw [rd_ub (by omega)] at hcol
        cases hcol
      rw [List.getElem?_append_left (by rw [List.length_take]; omega), List.getElem?_take_of_lt hpq] at k4
      unfold rd at hcol
      rw [hcol, Out.ok.injEq] at k4
      exact k4.symm
    rw [this]

/-- C141, the other elements: after inserting to the left of an element on the diagonal, or with an element below the
diagonal that is not the first of its row, the returned iterator claims to be in a smaller row. -/
theorem c141_insert_wrong {z : Bool} (m : Sparse α) (h : Built z m) (a c j : Nat) (v : α) (it : Iter) (hat : At m a c it)
    (hc : c + 1 < sizeMax) (hj : j < sizeMax) (hac : (a = c ∧ j < c) ∨ (c < a ∧ ∃ i w, i < c ∧ Spec.lookup m a i = .ok (some w)))
    (hnew : Spec.lookup m c j = .ok none) :
    ∃ m' q x, m.insert c j v = .ok (m', (c, q), true) ∧ m.insertOwn true it.2 j v = .ok (m', (x, q), true) ∧ x < c := by
  obtain ⟨L, h1, h2, _, _⟩ := inv_built h
  obtain ⟨ha, k, hk, hit, hkc, hcol⟩ := at_rep h1 hat
  obtain ⟨m', q, b, x, k1, k2, k3, k4, k5, k7⟩ := insertOwn_rep (v := v) h1 h2 ha hk hcol hc hj
  have hcL : c < L.length := by omega
  have hb : b = true := by
    rw [k7, row_of_lt hcL]
    rw [lookup_ok h1 hcL, Out.ok.injEq] at hnew
    rw [← row_of_lt hcL, mem_keys_iff, hnew]; simp
  subst hb
  obtain ⟨k4, k6⟩ := k4 rfl
  refine ⟨m', q, x, k1, k2, ?_⟩
  have hr := h2 a
  rw [row_of_lt ha] at hr
  have hl : it.2 < m.cols.length := by
    by_contra hcon
    rw [rd_ub (by omega)] at hcol
    cases hcol
  have hprev : 0 < k → ∃ y, m.cols[it.2 - 1]? = some y ∧ y < c := by
    intro hk0
    have := flatten_getElem? L ha (k := k - 1) (by omega)
    refine ⟨L[a][k - 1].1, ?_, ?_⟩
    · rw [h1.cols, List.getElem?_map, hit, show (a, psum L a + k).2 - 1 = psum L a + (k - 1) by simp only; omega, this]
      rfl
    · have := List.pairwise_iff_getElem.mp hr (k - 1) k (by simp; omega) (by simpa using hk) (by omega)
      rw [List.getElem_map, List.getElem_map, hkc] at this
      exact this
  unfold Sparse.colAt rd at k4
  rw [k6] at k4
  unfold insAt at k4
  have hqlen : q ≤ m.cols.length := by
    rw [k5, row_of_lt hcL, h1.lengths.1]
    exact psum_add_le L hcL (pos_le _ _)
  have hgt : q < it.2 → (m.cols.take q ++ j :: m.cols.drop q)[it.2]? = m.cols[it.2 - 1]? := by
    intro hq
    rw [List.getElem?_append_right (by rw [List.length_take]; omega), List.length_take, Nat.min_eq_left hqlen,
      show it.2 - q = (it.2 - 1 - q) + 1 by omega, List.getElem?_cons_succ, List.getElem?_drop]
    congr 1; omega
  rcases hac with ⟨rfl, hjc⟩ | ⟨hac, i, w, hic, hw⟩
  · have hpos : pos j L[a] ≤ k := pos_le_of hk (by omega)
    rw [row_of_lt ha] at k5
    by_cases hp : pos j L[a] = k
    · have hqe : q = it.2 := by rw [k5, hp, hit]
      rw [← hqe, List.getElem?_append_right (by rw [List.length_take]; omega), List.length_take,
        Nat.min_eq_left hqlen, Nat.sub_self] at k4
      simp only [List.getElem?_cons_zero, Out.ok.injEq] at k4
      omega
    · obtain ⟨y, hy1, hy2⟩ := hprev (by omega)
      rw [hgt (by rw [k5, hit]; show _ < psum L a + k; omega), hy1] at k4
      simp only [Out.ok.injEq] at k4
      omega
  · rw [lookup_ok h1 ha, Out.ok.injEq] at hw
    have hik : i ∈ keys L[a] := by rw [← row_of_lt ha, mem_keys_iff, hw]; simp
    obtain ⟨n, hn, hne⟩ := List.getElem_of_mem hik
    rw [List.getElem_map] at hne
    have hnl : n < L[a].length := by simpa using hn
    have hk0 : 0 < k := by
      by_contra h0
      have hk0 : k = 0 := by omega
      subst hk0
      rcases Nat.eq_zero_or_pos n with h0 | h0
      · subst h0; omega
      · have := List.pairwise_iff_getElem.mp hr 0 n (by simpa using hk) hn h0
        rw [List.getElem_map, List.getElem_map, hkc] at this
        omega
    obtain ⟨y, hy1, hy2⟩ := hprev hk0
    have hq : q < it.2 := by
      have h3 := psum_succ L hcL
      have h4 := psum_mono L (i := c + 1) (j := a) (by omega)
      have h5 := pos_le j L[c]
      rw [k5, row_of_lt hcL, hit]
      show _ < psum L a + k
      omega
    rw [hgt hq, hy1] at k4
    simp only [Out.ok.injEq] at k4
    omega

end

/-- The 2 by 2 matrix with the elements 5 at (0, 0), 6 at (1, 0) and 7 at (1, 1). -/
def ownMatrix : Sparse Int := ⟨[0, 1, 3], [0, 0, 1], [5, 6, 7], 2⟩

theorem ownMatrix_built : Built false ownMatrix :=
  Built.ofLists (nz := [0, 1, 3]) (ix := [0, 0, 1]) (vs := [5, 6, 7]) (c := 2) (by decide) (by decide) (by decide +kernel)

/-- The element at (1, 1), and an element inserted above it with its column as row. -/
theorem c141_violated : ¬ C141 := by
  intro h
  obtain ⟨_, _, h3⟩ := h ownMatrix ownMatrix_built 1 1 (1, 2) ⟨⟨7, by decide +kernel⟩, by decide +kernel⟩ (by decide)
  have := h3 2 (by decide)
  revert this
  exact c141_column_never ownMatrix ownMatrix_built 2 1 1 (1, 2) (by decide) ⟨⟨7, by decide +kernel⟩, by decide +kernel⟩
    (by decide)

/-- The hypotheses of the theorems can be met: mirroring the element at (0, 2) works, mirroring the one at (2, 1) returns an
iterator with row 0 in place of 1. -/
example :
    (⟨[0, 1, 1, 2], [2, 1], [5, 7], 3⟩ : Sparse Int).insertOwn true 0 0 5 =
      .ok (⟨[0, 1, 1, 3], [2, 0, 1], [5, 5, 7], 3⟩, (2, 1), true) ∧
    (⟨[0, 1, 1, 3], [2, 0, 1], [5, 6, 7], 3⟩ : Sparse Int).insertOwn true 2 2 7 =
      .ok (⟨[0, 1, 2, 4], [2, 2, 0, 1], [5, 7, 6, 7], 3⟩, (0, 1), true) := by decide +kernel

/-- Cutting the full 2 by 2 matrix at its second column keeps the second row and no columns; with the last element the
call is undefined. -/
example :
    (⟨[0, 2, 4], [0, 1, 0, 1], [5, 6, 7, 8], 2⟩ : Sparse Int).resizeOwnColumn 2 1 =
      .ok ⟨[0, 1, 3], [0, 0, 1], [5, 7, 8], 0⟩ ∧
    (⟨[0, 2, 4], [0, 1, 0, 1], [5, 6, 7, 8], 2⟩ : Sparse Int).resizeOwnColumn 2 3 = .ub := by decide +kernel

/-- The row of the element at (1, 1) is removed, the row of the element at (0, 1) is kept. -/
example :
    ownMatrix.resizeOwnRow 2 2 = .ub ∧
    (⟨[0, 1, 2], [1, 0], [5, 6], 2⟩ : Sparse Int).resizeOwnRow 0 2 = .ok ⟨[0, 1], [1], [5], 2⟩ := by decide +kernel

end Disa.Props
