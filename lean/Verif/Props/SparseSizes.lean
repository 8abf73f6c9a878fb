import Verif.Sparse.Built

/-!
# Property C153: sizes of sparse matrices
-/

namespace Disa.Props

open Disa Spec Sparse

variable {α : Type}

/-- C153 as stated in the properties file. -/
def C153 : Prop := ∀ m : Sparse Int, Built false m →
  (m.empty = true ↔ m.sizeRow = 0) ∧ (m.sizeRow = 0 → m.sizeNonZero = 0) ∧ (m.sizeRow = 0 → m.colSize = 0)

/-- Matrices that programs can obtain without asking a constructor or `resize` for columns but no rows. -/
inductive Tidy [Zero α] [Add α] [Neg α] [Mul α] [Div α] : Sparse α → Prop
  | new : Tidy Sparse.new
  | sized {r c : Nat} : r < sizeMax → (r = 0 → c = 0) → Tidy (Sparse.sized r c)
  | ofLists {nz ix : List Nat} {vs : List α} {c : Nat} {m : Sparse α} : nz.length ≤ sizeMax → c ≤ sizeMax →
      (nz.length = 1 → c = 0) → Sparse.ofLists nz ix vs c = .ok m → Tidy m
  | insert {m m' : Sparse α} {i j : Nat} {v : α} {it : Iter} {b : Bool} : Tidy m → i + 1 < sizeMax → j < sizeMax →
      m.insert i j v = .ok (m', it, b) → Tidy m'
  | insertOrAssign {m m' : Sparse α} {i j : Nat} {v : α} {it : Iter} {b : Bool} : Tidy m → i + 1 < sizeMax →
      j < sizeMax → m.insertOrAssign i j v = .ok (m', it, b) → Tidy m'
  | erase {m m' : Sparse α} {i j : Nat} : Tidy m → eraseAt m i j = .ok m' → Tidy m'
  | resize {m m' : Sparse α} {r c : Nat} : Tidy m → r < sizeMax → (r = 0 → c = 0) → m.resize r c = .ok m' → Tidy m'
  | clear {m : Sparse α} : Tidy m → Tidy m.clear
  | ref {m m' : Sparse α} {i j : Nat} {it : Iter} : Tidy m → j < sizeMax → m.ref i j = .ok (m', it) → Tidy m'
  | write {m m' : Sparse α} {it : Iter} {v : α} : Tidy m → m.setAt it v = .ok m' → Tidy m'
  | scale {m : Sparse α} {a : α} : Tidy m → Tidy (m.scale a)
  | unscale {m : Sparse α} {a : α} : Tidy m → Tidy (m.unscale a)
  | arith {m o m' : Sparse α} {isAdd : Bool} : Tidy m → Tidy o → m.arith isAdd (some o) = .ok m' → Tidy m'
  | arithSelf {m m' : Sparse α} {isAdd : Bool} : Tidy m → m.arith isAdd none = .ok m' → Tidy m'
  | mul {m o m' : Sparse α} : Tidy m → Tidy o → m.mul (some o) = .ok m' → Tidy m'
  | mulSelf {m m' : Sparse α} : Tidy m → m.mul none = .ok m' → Tidy m'

section
variable [Zero α] [Add α] [Neg α] [Mul α] [Div α]

theorem tidy_built {m : Sparse α} (h : Tidy m) : Built true m := by
  induction h with
  | new => exact .new
  | sized h _ => exact .sized h
  | ofLists h1 h2 _ h => exact .ofLists h1 h2 h
  | insert _ h1 h2 h ih => exact .insert ih h1 h2 h
  | insertOrAssign _ h1 h2 h ih => exact .insertOrAssign ih h1 h2 h
  | erase _ h ih => exact .erase ih h
  | resize _ h1 _ h ih => exact .resize ih h1 (.inl rfl) h
  | clear _ ih => exact .clear ih
  | ref _ h1 h ih => exact .ref ih h1 h
  | write _ h ih => exact .write ih h
  | scale _ ih => exact .scale ih
  | unscale _ ih => exact .unscale ih
  | arith _ _ h ih1 ih2 => exact .arith ih1 ih2 h
  | arithSelf _ h ih => exact .arithSelf ih h
  | mul _ _ h ih1 ih2 => exact .mul ih1 ih2 h
  | mulSelf _ h ih => exact .mulSelf ih h

/-- C153: the matrix is empty if it has no rows, and then it has no elements. -/
theorem c153_empty (m : Sparse α) (h : Built true m) :
    (m.empty = true ↔ m.sizeRow = 0) ∧ (m.sizeRow = 0 → m.sizeNonZero = 0) := by
  obtain ⟨L, h⟩ := inv_built h
  constructor
  · unfold Sparse.empty Sparse.sizeRow
    cases m.off with
    | nil => simp
    | cons x l => cases l <;> simp
  · rw [h.1.sizeRow]
    intro h0
    have := h.1.lengths.1
    rw [List.length_eq_zero_iff.mp h0] at this
    exact this

omit [Zero α] [Add α] [Neg α] [Mul α] [Div α] in
/-- C153: `clear` leaves no rows, columns and elements. -/
theorem c153_clear (m : Sparse α) :
    m.clear.empty = true ∧ m.clear.sizeRow = 0 ∧ m.clear.colSize = 0 ∧ m.clear.sizeNonZero = 0 := ⟨rfl, rfl, rfl, rfl⟩

omit [Zero α] [Add α] [Neg α] [Mul α] [Div α] in
/-- C153: the constructor and `resize` give the sizes asked for. -/
theorem c153_asked (r c : Nat) (hr : r < sizeMax) : (Sparse.sized r c : Sparse α).sizeRow = r ∧ (Sparse.sized r c : Sparse α).colSize = c :=
  ⟨by rw [(rep_sized hr c).sizeRow, List.length_replicate], rfl⟩

/-- C153: see `c153_asked`. -/
theorem c153_resize (m m' : Sparse α) (h : Built true m) (r c : Nat) (hr : r < sizeMax) (hm : m.resize r c = .ok m') :
    m'.sizeRow = r ∧ m'.colSize = c := by
  obtain ⟨L, h⟩ := inv_built h
  obtain ⟨m1, h5, h6, h7⟩ := h.1.resize h.2.1 c hr
  rw [h5, Out.ok.injEq] at hm
  subst hm
  exact ⟨by rw [h7.sizeRow, resRows_length], h6⟩

/-- C153, unless a constructor or `resize` was asked for columns but no rows: without rows there are no columns. -/
theorem c153_partial (m : Sparse α) (h : Tidy m) : m.sizeRow = 0 → m.colSize = 0 := by
  induction h with
  | new => intro _; rfl
  | @sized r c hr hc =>
    rw [(rep_sized hr c).sizeRow, List.length_replicate]
    exact hc
  | @ofLists nz ix vs c m hn hk hc ho =>
    have hne : nz ≠ [] := by
      rintro rfl
      simp [Sparse.ofLists, rd] at ho
    obtain ⟨h1, h2⟩ := ofLists_spec (index := ix) (value := vs) hne hn c
    by_cases hg : GoodLists nz ix vs ∧ ∀ r ∈ rawRows nz (ix.zip vs), GoodRow c r
    · obtain ⟨m', h3, h4, h5⟩ := h1 hg
      rw [h3, Out.ok.injEq] at ho
      subst ho
      rw [h4.sizeRow, h5]
      intro h0
      apply hc
      have : 0 < nz.length := List.length_pos_iff.mpr hne
      simp [rawRows] at h0
      omega
    · rw [h2 hg] at ho; cases ho
  | @insert m m' i j v it b hm hi hj he ih =>
    obtain ⟨L, h⟩ := inv_built (tidy_built hm)
    obtain ⟨m1, b', h5, h6, _⟩ := h.1.insert h.2.1 hi hj v
    rw [h5, Out.ok.injEq, Prod.mk.injEq] at he
    obtain ⟨rfl, _⟩ := he
    rw [h6.sizeRow, insRows_length]
    omega
  | @insertOrAssign m m' i j v it b hm hi hj he ih =>
    obtain ⟨L, h⟩ := inv_built (tidy_built hm)
    obtain ⟨m1, it', b', h5, h6, _⟩ := h.1.insertOrAssign h.2.1 hi hj v
    rw [h5, Out.ok.injEq, Prod.mk.injEq] at he
    obtain ⟨rfl, _⟩ := he
    rw [h6.sizeRow, putRows_length]
    omega
  | @erase m m' i j hm he ih =>
    obtain ⟨L, h⟩ := inv_built (tidy_built hm)
    obtain ⟨hi, hj⟩ := eraseAt_row h.1 he
    obtain ⟨m1, h5, h6, _⟩ := eraseAt_ok h.1 h.2.1 hi hj
    rw [h5, Out.ok.injEq] at he
    subst he
    rw [h6.sizeRow, List.length_set]
    omega
  | @resize m m' r c hm hr hc he ih =>
    obtain ⟨e1, e2⟩ := c153_resize m m' (tidy_built hm) r c hr he
    rw [e1, e2]
    exact hc
  | clear => intro _; rfl
  | @ref m m' i j it hm hj he ih =>
    obtain ⟨L, h⟩ := inv_built (tidy_built hm)
    have hi : i < L.length := by
      by_contra hc
      unfold Sparse.ref at he
      have : ¬ i < m.sizeRow := by rw [h.1.sizeRow]; exact hc
      simp [assert, this] at he
    obtain ⟨m1, w, h5, h6, _⟩ := h.1.ref h.2.1 hi hj
    rw [h5, Out.ok.injEq, Prod.mk.injEq] at he
    obtain ⟨rfl, _⟩ := he
    rw [h6.sizeRow, insRows_length]
    omega
  | @write m m' it v hm he ih =>
    simp only [Sparse.setAt, Out.bind_eq_ok, Out.pure_eq, Out.ok.injEq] at he
    obtain ⟨_, _, rfl⟩ := he
    exact ih
  | scale _ ih => exact ih
  | unscale _ ih => exact ih
  | @arith m o m' isAdd hm ho he ih1 ih2 =>
    obtain ⟨L, h1, h2, -⟩ := inv_built (tidy_built hm)
    obtain ⟨M, k1, k2, k3, -⟩ := inv_built (tidy_built ho)
    have hsz : L.length = M.length ∧ m.colSize = o.colSize := by
      by_contra hc
      unfold Sparse.arith at he
      have : (m.sizeRow == o.sizeRow && m.colSize == o.colSize) = false := by
        rw [h1.sizeRow, k1.sizeRow]
        simpa [Bool.and_eq_false_iff, beq_eq_false_iff_ne, not_and_or] using hc
      simp only [operand, Option.getD_some, this] at he
      simp [assert] at he
    obtain ⟨m1, h5, h6, -⟩ := h1.arith h2 k1 k2 k3 hsz.1 hsz.2 isAdd
    intro h0
    have hm1 : m1 = m' := by rw [h5, Out.ok.injEq] at he; exact he
    subst hm1
    rw [h6.sizeRow] at h0
    have hL : L.length = 0 := by simpa [arithRows] using h0
    unfold Sparse.arith at he
    simp only [operand, Option.getD_some, h1.sizeRow, k1.sizeRow, ← hsz.1, ← hsz.2, beq_self_eq_true, Bool.and_self,
      assert_true, Out.ok_bind, hL, loop, Out.ok.injEq] at he
    rw [← he]
    exact ih1 (h1.sizeRow.trans hL)
  | @arithSelf m m' isAdd hm he ih =>
    obtain ⟨L, h⟩ := inv_built (tidy_built hm)
    obtain ⟨m1, h5, h6, h7⟩ := h.1.arith_self isAdd
    rw [h5, Out.ok.injEq] at he
    subst he
    rw [h6.sizeRow, h7]
    intro h0
    exact ih (by rw [h.1.sizeRow]; simpa [selfRows] using h0)
  | @mul m o m' hm ho he ih1 ih2 =>
    obtain ⟨L, h1, h2, h3, -⟩ := inv_built (tidy_built hm)
    obtain ⟨M, k1, k2, k3, -⟩ := inv_built (tidy_built ho)
    have hsz : m.colSize = M.length := by
      by_contra hc
      unfold Sparse.mul at he
      have : (m.colSize == o.sizeRow) = false := by rw [k1.sizeRow]; simpa using hc
      simp only [operand, Option.getD_some, this] at he
      simp [assert] at he
    intro h0
    have hL : L.length = 0 := by
      rcases h1.mul_or_ub h3 k1 k3 hsz with h | ⟨m1, h, N, h5, _, h7, _⟩
      · rw [h] at he; cases he
      · rw [h, Out.ok.injEq] at he
        subst he
        rw [h5.sizeRow] at h0
        omega
    have hc : o.colSize = 0 := ih2 (by rw [k1.sizeRow, ← hsz]; exact ih1 (h1.sizeRow.trans hL))
    unfold Sparse.mul at he
    obtain ⟨f, e1, e2, -⟩ := rep_replicate (α := α) h1.small o.colSize
    simp only [operand, Option.getD_some, k1.sizeRow, hsz, beq_self_eq_true, assert_true, Out.ok_bind, h1.sizeRow, e1] at he
    rw [hL] at he
    simp only [loop, Out.ok.injEq] at he
    rw [← he, e2, hc]
  | @mulSelf m m' hm he ih =>
    obtain ⟨L, h1, h2, h3, -⟩ := inv_built (tidy_built hm)
    have hsz : m.colSize = L.length := by
      by_contra hc
      unfold Sparse.mul at he
      have : (m.colSize == m.sizeRow) = false := by rw [h1.sizeRow]; simpa using hc
      simp only [operand, Option.getD_none, this] at he
      simp [assert] at he
    intro h0
    have hL : L.length = 0 := by
      rcases h1.mul_self_or_ub h3 hsz with h | ⟨m1, h, N, h5, _, h7, _⟩
      · rw [h] at he; cases he
      · rw [h, Out.ok.injEq] at he
        subst he
        rw [h5.sizeRow] at h0
        omega
    have hc : m.colSize = 0 := ih (h1.sizeRow.trans hL)
    unfold Sparse.mul at he
    obtain ⟨f, e1, e2, -⟩ := rep_replicate (α := α) h1.small m.colSize
    simp only [operand, Option.getD_none, h1.sizeRow, hsz, beq_self_eq_true, assert_true, Out.ok_bind] at he
    rw [← hsz, hc] at he
    rw [hL, hc] at e1
    simp only [e1, Out.ok_bind, loop, Out.ok.injEq] at he
    rw [← he, e2, hc]

end

/-- A matrix with five columns but no rows. -/
theorem c153_violated : ¬ C153 := fun h => absurd ((h (Sparse.sized 0 5) (.sized (by decide))).2.2 rfl) (by decide)

/-- `c153_partial` says something: rows are added to and then taken from a matrix. -/
example : ∃ m : Sparse Int, Tidy m ∧ m.sizeRow = 0 := by
  refine ⟨_, .resize (r := 0) (c := 0) (.sized (r := 3) (c := 4) (by decide) (by decide)) (by decide) (by decide)
    (m' := ⟨[0], [], [], 0⟩) (by decide), rfl⟩

end Disa.Props
