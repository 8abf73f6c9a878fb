import Verif.Props.SparseAlgebra
import Mathlib.Data.List.Perm.Basic

/-!
# Property C148: assembling sparse matrices
-/

namespace Disa.Props

open Disa Disa.Spec Disa.Sparse

variable {α : Type}

/-- The calls that assemble a matrix. -/
inductive How where
  /-- `matrix.insert(i, j, v)` -/
  | insert
  /-- `matrix.insert_or_assign(i, j, v)` -/
  | insertOrAssign
  /-- `matrix[i][j] = v` -/
  | assign
  /-- `matrix[i][j] += v` -/
  | add
deriving DecidableEq

/-- A call with its arguments. -/
structure Edit (α : Type) where
  how : How
  row : Nat
  col : Nat
  v : α

/-- Perform a call. -/
def edit [Zero α] [Add α] (m : Sparse α) (e : Edit α) : Out (Sparse α) :=
  match e.how with
  | .insert => do let (m, _, _) ← m.insert e.row e.col e.v; pure m
  | .insertOrAssign => do let (m, _, _) ← m.insertOrAssign e.row e.col e.v; pure m
  | .assign => m.assign e.row e.col e.v
  | .add => m.addAt e.row e.col e.v

/-- Perform calls one after the other. -/
def assemble [Zero α] [Add α] (m : Sparse α) : List (Edit α) → Out (Sparse α)
  | [] => .ok m
  | e :: es => do let m ← edit m e; assemble m es

/-- What a call should do to its element. -/
def Edit.on [Zero α] [Add α] (e : Edit α) (o : Option α) : Option α :=
  match e.how with
  | .insert => some (o.getD e.v)
  | .insertOrAssign => some e.v
  | .assign => some e.v
  | .add => some (o.getD 0 + e.v)

/-- The calls for the element `(i, j)`, in their order. -/
def cell (es : List (Edit α)) (i j : Nat) : List (Edit α) := es.filter fun e => decide (e.row = i ∧ e.col = j)

/-- The indices can be stored, and `matrix[i]` is only used for rows of the matrix. -/
def Edit.Fits (e : Edit α) (r : Nat) : Prop :=
  e.row + 1 < sizeMax ∧ e.col < sizeMax ∧ (e.how = .assign ∨ e.how = .add → e.row < r)

section steps

variable [Zero α] [Add α]

/-- The matrix `m'` is `m` with the element of `e` changed. -/
theorem edit_ok {m : Sparse α} {L : Rows α} (h : m.Rep L) (hs : Sorted L) (hb : Bounded m.colSize L) {e : Edit α}
    (he : e.Fits L.length) :
    ∃ m' L', edit m e = .ok m' ∧ m'.Rep L' ∧ Sorted L' ∧ Bounded m'.colSize L' ∧ L'.length = max L.length (e.row + 1) ∧
      m'.colSize = max m.colSize (e.col + 1) ∧
      ∀ a b, entry L' a b = if a = e.row ∧ b = e.col then e.on (entry L a b) else entry L a b := by
  obtain ⟨how, i, j, v⟩ := e
  obtain ⟨hi, hj, hr⟩ := he
  simp only at hi hj hr
  -- all but the bound on the columns
  suffices H : ∃ m' L', edit m ⟨how, i, j, v⟩ = .ok m' ∧ m'.Rep L' ∧ Sorted L' ∧ L'.length = max L.length (i + 1) ∧
      m'.colSize = max m.colSize (j + 1) ∧
      ∀ a b, entry L' a b = if a = i ∧ b = j then Edit.on ⟨how, i, j, v⟩ (entry L a b) else entry L a b by
    obtain ⟨m', L', h1, h2, h3, h4, h5, h6⟩ := H
    refine ⟨m', L', h1, h2, h3, ?_, h4, h5, h6⟩
    rw [bounded_entry] at hb ⊢
    intro a b hab
    rw [h6] at hab
    rw [h5]
    split at hab
    · rename_i hc
      have := hc.2
      omega
    · have := hb a b hab
      omega
  have href : i < L.length → ∃ w, (row (insRows i j 0 L) i).lookup j = some w ∧ w = (entry L i j).getD 0 := by
    intro hil
    obtain ⟨_, w, -, -, -, -, hw⟩ := h.ref hs hil hj
    refine ⟨w, hw, ?_⟩
    have := entry_insRows hs i j 0 i j
    unfold entry at this
    rw [hw] at this
    unfold entry
    by_cases hn : (row L i).lookup j = none
    · rw [if_pos ⟨rfl, rfl, hn⟩] at this
      rw [hn]
      simpa using this
    · rw [if_neg (by tauto)] at this
      rw [← this]
      rfl
  have hcol : (if j ∈ keys (row L i) then m.colSize else max m.colSize (j + 1)) = max m.colSize (j + 1) := by
    split
    · rename_i hk
      have := bounded_entry.mp hb i j (mem_keys_iff.mp hk)
      omega
    · rfl
  cases how with
  | insert =>
    obtain ⟨m', b, h1, h2, h3, -⟩ := h.insert hs hi hj v
    refine ⟨m', insRows i j v L, ?_, h2, sorted_insRows hs i j v, insRows_length i j v L, h3, fun a b => ?_⟩
    · simp only [edit, h1, Out.ok_bind, Out.pure_eq]
    · rw [entry_insRows hs]
      simp only [Edit.on]
      by_cases hc : a = i ∧ b = j
      · rw [if_pos hc]
        obtain ⟨rfl, rfl⟩ := hc
        cases hx : entry L a b <;> simp
      · rw [if_neg hc, if_neg (by tauto)]
  | insertOrAssign =>
    obtain ⟨m', it, b, h1, h2, h3, -⟩ := h.insertOrAssign hs hi hj v
    refine ⟨m', putRows i j v L, ?_, h2, sorted_putRows hs i j v, putRows_length i j v L, h3, fun a b => ?_⟩
    · simp only [edit, h1, Out.ok_bind, Out.pure_eq]
    · rw [entry_putRows hs]
      rfl
  | assign =>
    have hil := hr (.inl rfl)
    obtain ⟨m', h1, h2, h3⟩ := h.assign hs hil hj v
    obtain ⟨w, hw, -⟩ := href hil
    have hk : j ∈ keys (row (insRows i j 0 L) i) := by rw [mem_keys_iff]; unfold entry; rw [hw]; simp
    have hl' : i < (insRows i j 0 L).length := by rw [insRows_length]; omega
    refine ⟨m', _, h1, h2, sorted_setRow (sorted_insRows hs i j 0) hl' hk v, ?_, h3.trans hcol, fun a b => ?_⟩
    · rw [List.length_set, insRows_length]
    · rw [entry_setRow (sorted_insRows hs i j 0) hl' hk, entry_insRows hs]
      simp only [Edit.on]
      by_cases hc : a = i ∧ b = j
      · rw [if_pos hc, if_pos hc]
      · rw [if_neg hc, if_neg hc, if_neg (by tauto)]
  | add =>
    have hil := hr (.inr rfl)
    obtain ⟨m1, w, h1, h2, h3, h4, h5⟩ := h.ref hs hil hj
    have hw : w = (entry L i j).getD 0 := by
      obtain ⟨w', e1, e2⟩ := href hil
      rw [h5] at e1
      cases e1
      exact e2
    have hk : j ∈ keys (row (insRows i j 0 L) i) := by rw [mem_keys_iff]; unfold entry; rw [h5]; simp
    have hl' : i < (insRows i j 0 L).length := by rw [insRows_length]; omega
    obtain ⟨m2, h6, h7, h8⟩ := h2.setPos (a := i) (sorted_insRows hs i j 0) hl' hk (w + v)
    refine ⟨m2, _, ?_, h8, sorted_setRow (sorted_insRows hs i j 0) hl' hk (w + v), ?_, ?_, fun a b => ?_⟩
    · simp only [edit, Sparse.addAt, h1, Out.ok_bind, h4, h6]
    · rw [List.length_set, insRows_length]
    · rw [h7, h3, hcol]
    · rw [entry_setRow (sorted_insRows hs i j 0) hl' hk, entry_insRows hs]
      simp only [Edit.on]
      by_cases hc : a = i ∧ b = j
      · rw [if_pos hc, if_pos hc, hc.1, hc.2, hw]
      · rw [if_neg hc, if_neg hc, if_neg (by tauto)]

theorem assemble_ok (es : List (Edit α)) : ∀ {m : Sparse α} {L : Rows α}, m.Rep L → Sorted L → Bounded m.colSize L →
    (∀ e ∈ es, e.Fits L.length) →
    ∃ m' L', assemble m es = .ok m' ∧ m'.Rep L' ∧ Sorted L' ∧ Bounded m'.colSize L' ∧
      (∀ k, L'.length ≤ k ↔ L.length ≤ k ∧ ∀ e ∈ es, e.row < k) ∧
      (∀ k, m'.colSize ≤ k ↔ m.colSize ≤ k ∧ ∀ e ∈ es, e.col < k) ∧
      ∀ a b, entry L' a b = (cell es a b).foldl (fun o e => e.on o) (entry L a b) := by
  induction es with
  | nil => intro m L h hs hb _; exact ⟨m, L, rfl, h, hs, hb, by simp, by simp, fun _ _ => rfl⟩
  | cons e es ih =>
    intro m L h hs hb he
    obtain ⟨m1, L1, h1, h2, h3, h4, h5, h6, h7⟩ := edit_ok h hs hb (he e (by simp))
    obtain ⟨m2, L2, k1, k2, k3, k4, k5, k6, k7⟩ := ih h2 h3 h4 (fun e' he' => by
      obtain ⟨a, b, c⟩ := he e' (by simp [he'])
      exact ⟨a, b, fun hh => by have := c hh; omega⟩)
    refine ⟨m2, L2, ?_, k2, k3, k4, fun k => ?_, fun k => ?_, fun a b => ?_⟩
    · rw [assemble, h1, Out.ok_bind, k1]
    · rw [k5, h5, List.forall_mem_cons, max_le_iff, Nat.succ_le_iff, and_assoc]
    · rw [k6, h6, List.forall_mem_cons, max_le_iff, Nat.succ_le_iff, and_assoc]
    · rw [k7, h7]
      unfold cell
      by_cases hc : a = e.row ∧ b = e.col
      · rw [if_pos hc, List.filter_cons_of_pos (by simp [hc.1, hc.2])]
        rfl
      · rw [if_neg hc, List.filter_cons_of_neg (by simp only [decide_eq_true_eq]; tauto)]

end steps

variable [Zero α] [Add α] [Neg α] [Mul α] [Div α]

/-- C148: calls that fit succeed.  The matrix grows to the least size that holds the rows and columns named; an element is what
the calls that name it make of it, one after the other, whatever the others do. -/
theorem c148_elements (m : Sparse α) (h : Built false m) (es : List (Edit α)) (he : ∀ e ∈ es, e.Fits m.sizeRow) :
    ∃ m', assemble m es = .ok m' ∧
      (∀ k, m'.sizeRow ≤ k ↔ m.sizeRow ≤ k ∧ ∀ e ∈ es, e.row < k) ∧
      (∀ k, m'.colSize ≤ k ↔ m.colSize ≤ k ∧ ∀ e ∈ es, e.col < k) ∧
      ∀ i j, i < m'.sizeRow → ∃ o, (if i < m.sizeRow then Spec.lookup m i j = .ok o else o = none) ∧
        Spec.lookup m' i j = .ok ((cell es i j).foldl (fun o e => e.on o) o) := by
  obtain ⟨L, h1, h2, -, h4⟩ := inv_built h
  obtain ⟨m', L', k1, k2, k3, k4, k5, k6, k7⟩ := assemble_ok es h1 h2 (h4 rfl) (by rw [← h1.sizeRow]; exact he)
  refine ⟨m', k1, fun k => by rw [k2.sizeRow, h1.sizeRow, k5], k6, fun i j hi => ⟨entry L i j, ?_, ?_⟩⟩
  · rw [h1.sizeRow]
    split
    · rename_i hi'; exact lookup_ok h1 hi' j
    · rename_i hi'; exact entry_none_of_ge (by omega)
  · rw [lookup_ok k2 (by rw [← k2.sizeRow]; exact hi), k7]

/-- C148: a matrix with rows is determined by its sizes and its elements, also its storage. -/
theorem c148_determined (m o : Sparse α) (hm : Built false m) (ho : Built false o) (hr : m.sizeRow = o.sizeRow)
    (hc : m.colSize = o.colSize) (h0 : 0 < m.sizeRow) (h : ∀ i j, i < m.sizeRow → Spec.lookup m i j = Spec.lookup o i j) :
    m = o := by
  obtain ⟨L, h1, h2, -⟩ := inv_built hm
  obtain ⟨M, k1, k2, -⟩ := inv_built ho
  have hlen : L.length = M.length := by rw [← h1.sizeRow, hr, k1.sizeRow]
  have : L = M := by
    refine List.ext_getElem hlen (fun i hi hi' => ?_)
    rw [← row_of_lt hi, ← row_of_lt hi']
    refine row_of_lookups (h2 i) (k2 i) (fun k => ?_)
    have := h i k (by rw [h1.sizeRow]; exact hi)
    rw [lookup_ok h1 hi, lookup_ok k1 hi', Out.ok.injEq] at this
    exact this
  subst this
  have hL : L ≠ [] := by rintro rfl; rw [h1.sizeRow] at h0; simp at h0
  obtain ⟨off, cols, vals, cs⟩ := m
  obtain ⟨off', cols', vals', cs'⟩ := o
  have e1 := h1.off_eq hL
  have e2 := k1.off_eq hL
  have e3 := h1.cols
  have e4 := k1.cols
  have e5 := h1.vals
  have e6 := k1.vals
  simp only at e1 e2 e3 e4 e5 e6 hc
  subst e1 e2 e3 e4 e5 e6 hc
  rfl

theorem assemble_same {m : Sparse α} (h : Built false m) {es es' : List (Edit α)} (he : ∀ e ∈ es, e.Fits m.sizeRow)
    (hmem : ∀ e, e ∈ es ↔ e ∈ es')
    (hfold : ∀ i j o, (cell es i j).foldl (fun o e => e.on o) o = (cell es' i j).foldl (fun o e => e.on o) o) :
    ∃ m', assemble m es = .ok m' ∧ assemble m es' = .ok m' := by
  obtain ⟨L, h1, h2, -, h4⟩ := inv_built h
  rw [h1.sizeRow] at he
  obtain ⟨m1, L1, k1, k2, k3, -, k5, k6, k7⟩ := assemble_ok es h1 h2 (h4 rfl) he
  obtain ⟨m2, L2, l1, l2, l3, -, l5, l6, l7⟩ := assemble_ok es' h1 h2 (h4 rfl) (fun e h => he e ((hmem e).mpr h))
  simp only [hmem] at k5 k6
  have hlen : L1.length = L2.length :=
    le_antisymm ((k5 _).mpr ((l5 _).mp le_rfl)) ((l5 _).mpr ((k5 _).mp le_rfl))
  have hcol : m1.colSize = m2.colSize :=
    le_antisymm ((k6 _).mpr ((l6 _).mp le_rfl)) ((l6 _).mpr ((k6 _).mp le_rfl))
  have hL : L1 = L2 := by
    refine List.ext_getElem hlen (fun i hi hi' => ?_)
    rw [← row_of_lt hi, ← row_of_lt hi']
    refine row_of_lookups (k3 i) (l3 i) (fun k => ?_)
    have a := k7 i k
    rw [hfold] at a
    exact a.trans (l7 i k).symm
  subst hL
  rcases es' with _ | ⟨e, es'⟩
  · rcases es with _ | ⟨e, es⟩
    · exact ⟨m1, k1, k1⟩
    · exact absurd ((hmem e).mp (by simp)) (by simp)
  · have hne : L1 ≠ [] := by
      have := ((k5 L1.length).mp le_rfl).2 e (by simp)
      rintro rfl
      simp at this
    refine ⟨m1, k1, ?_⟩
    rw [l1]
    obtain ⟨off, cols, vals, cs⟩ := m1
    obtain ⟨off', cols', vals', cs'⟩ := m2
    have e1 := k2.off_eq hne
    have e2 := l2.off_eq hne
    have e3 := k2.cols
    have e4 := l2.cols
    have e5 := k2.vals
    have e6 := l2.vals
    simp only at e1 e2 e3 e4 e5 e6 hcol
    subst e1 e2 e3 e4 e5 e6 hcol
    rfl

/-- C148: the order of calls for different elements does not matter, for all scalars, doubles among them. -/
theorem c148_order (m : Sparse α) (h : Built false m) (es es' : List (Edit α)) (he : ∀ e ∈ es, e.Fits m.sizeRow)
    (hc : ∀ i j, cell es i j = cell es' i j) : ∃ m', assemble m es = .ok m' ∧ assemble m es' = .ok m' := by
  have hsub : ∀ {es es' : List (Edit α)}, (∀ i j, cell es i j = cell es' i j) → ∀ e ∈ es, e ∈ es' := by
    intro es es' hc e he
    have : e ∈ cell es e.row e.col := by unfold cell; simp [he]
    rw [hc] at this
    exact (List.mem_filter.mp this).1
  exact assemble_same h he (fun e => ⟨hsub hc e, hsub (fun i j => (hc i j).symm) e⟩) (fun i j o => by rw [hc])

/-- C148: calls for different elements in any order. -/
theorem c148_distinct (m : Sparse α) (h : Built false m) (es es' : List (Edit α)) (he : ∀ e ∈ es, e.Fits m.sizeRow)
    (hd : es.Pairwise fun a b => ¬ (a.row = b.row ∧ a.col = b.col)) (hp : es.Perm es') :
    ∃ m', assemble m es = .ok m' ∧ assemble m es' = .ok m' := by
  refine c148_order m h es es' he (fun i j => ?_)
  have hp' : (cell es i j).Perm (cell es' i j) := hp.filter _
  have hl : (cell es i j).length ≤ 1 := by
    have hpw : (cell es i j).Pairwise fun a b => ¬ (a.row = b.row ∧ a.col = b.col) := hd.filter _
    have hmem : ∀ e ∈ cell es i j, e.row = i ∧ e.col = j := fun e he => by
      have := (List.mem_filter.mp he).2
      simpa using this
    rcases hc : cell es i j with _ | ⟨a, _ | ⟨b, r⟩⟩
    · simp
    · simp
    · exfalso
      rw [hc] at hpw hmem
      have ha := hmem a (by simp)
      have hb := hmem b (by simp)
      exact (List.pairwise_cons.mp hpw).1 b (by simp) ⟨ha.1.trans hb.1.symm, ha.2.trans hb.2.symm⟩
  rcases hc : cell es i j with _ | ⟨a, _ | ⟨b, r⟩⟩
  · rw [hc] at hp'
    exact hp'.nil_eq
  · rw [hc] at hp'
    exact (List.perm_singleton.mp hp'.symm).symm
  · rw [hc] at hl
    simp at hl

/-- C148: contributions may be added in any order if the sum of scalars does not depend on it. -/
theorem c148_sums (hadd : ∀ a b c : α, a + b + c = a + c + b) (m : Sparse α) (h : Built false m) (es es' : List (Edit α))
    (he : ∀ e ∈ es, e.Fits m.sizeRow) (ha : ∀ e ∈ es, e.how = .add) (hp : es.Perm es') :
    ∃ m', assemble m es = .ok m' ∧ assemble m es' = .ok m' := by
  have hfold : ∀ {l l' : List (Edit α)}, l.Perm l' → (∀ e ∈ l, e.how = .add) → ∀ o : Option α,
      l.foldl (fun o e => e.on o) o = l'.foldl (fun o e => e.on o) o := by
    intro l l' hp
    induction hp with
    | nil => intro _ _; rfl
    | cons x _ ih => intro hl o; exact ih (fun e he => hl e (by simp [he])) _
    | swap x y r =>
      intro hl o
      have h1 := hl x (by simp)
      have h2 := hl y (by simp)
      simp only [List.foldl_cons, Edit.on, h1, h2, Option.getD_some]
      rw [hadd]
    | trans p1 p2 ih1 ih2 =>
      intro hl o
      exact (ih1 hl o).trans (ih2 (fun e he => hl e (p1.mem_iff.mpr he)) o)
  exact assemble_same h he (fun e => hp.mem_iff) (fun i j o =>
    hfold (hp.filter _) (fun e he => ha e (List.mem_filter.mp he).1) o)

/-- Calls that fit the matrix with two rows and columns, for three elements; the first is named twice. -/
def sampleEdits : List (Edit ℚ) :=
  [⟨.add, 0, 1, 2⟩, ⟨.insert, 1, 0, 5⟩, ⟨.add, 0, 1, 3⟩, ⟨.insertOrAssign, 2, 2, 7⟩]

example : (∀ e ∈ sampleEdits, e.Fits 2) ∧ assemble (Sparse.sized 2 2) sampleEdits = .ok ⟨[0, 1, 2, 3], [1, 0, 2], [5, 5, 7], 3⟩ := by
  constructor
  · intro e he
    simp only [sampleEdits, List.mem_cons, List.not_mem_nil, or_false] at he
    rcases he with rfl | rfl | rfl | rfl <;> simp [Edit.Fits, sizeMax]
  · decide +kernel

end Disa.Props
