import Verif.Props.Capacity
import Verif.Sparse.Capacity
import Verif.Sparse.Built

/-!
# Property C151: reserved storage of sparse matrices
-/

namespace Disa.Props

open Disa Spec Sparse

variable {α : Type}

/-- C151 as stated in the properties file, the part about `reserve`. -/
def C151 : Prop := ∀ (a b : Alloc) (c c' : SparseRoom Int) (r n : Nat), SparseHeld a b c → r ≤ sizeMax → n ≤ sizeMax →
  c.reserve a b r n = .ok c' → r + 1 ≤ c'.capacity.1 ∧ n ≤ c'.capacity.2

theorem flat_set {β : Type} (L : List (List β)) {i : Nat} (hi : i < L.length) (r : List β) :
    (L.set i r).flatten.length + L[i].length = L.flatten.length + r.length := by
  have h1 := psum_set L hi r L.length
  rw [if_neg (by omega)] at h1
  have h2 : psum (L.set i r) L.length = (L.set i r).flatten.length := by
    have := psum_length (L.set i r); rwa [List.length_set] at this
  have h3 := psum_length L
  have h4 := psum_succ L hi
  have h5 := psum_le L (i + 1)
  omega

theorem insRows_flat (i j : Nat) (v : α) (L : Rows α) :
    (insRows i j v L).flatten.length = L.flatten.length + if j ∈ keys (row L i) then 0 else 1 := by
  unfold insRows
  split
  · rfl
  · have hi : i < (pad L (i + 1)).length := by rw [pad_length]; omega
    have h1 := flat_set (pad L (i + 1)) hi (insRow j v (row L i))
    have h2 : (pad L (i + 1))[i] = row L i := by rw [← row_of_lt hi, row_pad]
    rw [h2, insRow_length, flatten_pad] at h1
    omega

theorem setRow_length (j : Nat) (v : α) (r : List (Nat × α)) : (setRow j v r).length = r.length := by simp [setRow]

theorem setRow_flat {L : Rows α} {i : Nat} (hi : i < L.length) (j : Nat) (v : α) :
    (L.set i (setRow j v (row L i))).flatten.length = L.flatten.length := by
  have h1 := flat_set L hi (setRow j v (row L i))
  rw [setRow_length, row_of_lt hi] at h1
  rw [row_of_lt hi]
  omega

theorem putRows_flat (i j : Nat) (v : α) (L : Rows α) :
    (putRows i j v L).flatten.length = L.flatten.length + if j ∈ keys (row L i) then 0 else 1 := by
  unfold putRows
  split
  · rename_i h
    exact setRow_flat (lt_of_key h) j v
  · rename_i h
    rw [insRows_flat, if_neg h]

theorem resRows_flat (cs r c : Nat) (L : Rows α) : (resRows cs r c L).flatten.length ≤ L.flatten.length := by
  have h1 : (pad (L.take r) r).flatten.length ≤ L.flatten.length := by
    rw [flatten_pad]
    have := psum_le L r
    unfold psum at this
    exact this
  unfold resRows
  split
  · refine Nat.le_trans ?_ h1
    generalize pad (L.take r) r = M
    induction M with
    | nil => simp
    | cons x M ih =>
      have : (cropRow c x).length ≤ x.length := List.length_filter_le _ _
      simp only [List.map_cons, List.flatten_cons, List.length_append]
      omega
  · exact h1

theorem off_length {m : Sparse α} {L : Rows α} (h : m.Rep L) : m.off.length ≤ L.length + 1 := by
  rcases h.offs with h | ⟨_, h⟩ <;> rw [h] <;> simp

theorem off_length_eq {m : Sparse α} {L : Rows α} (h : m.Rep L) (hL : 0 < L.length) : m.off.length = L.length + 1 := by
  rw [h.off_eq (by rintro rfl; simp at hL), offs_length]

/-- What holds of a sparse matrix with its storage. -/
def SFits (c : SparseRoom α) (L : Rows α) : Prop :=
  c.matrix.Rep L ∧ Sorted L ∧ c.matrix.off.length ≤ c.off ∧ c.matrix.cols.length ≤ c.cols ∧ c.matrix.vals.length ≤ c.vals

/-- The calls that store elements: the rows afterwards and the capacities. -/
theorem store_step [Zero α] {a b : Alloc} {c c' : SparseRoom α} {L : Rows α} (h1 : c.matrix.Rep L) (h2 : Sorted L)
    {op : SparseOp α} (hv : op.Valid) (ho : op.Stores) (hs : sparseStep a b c op = .ok c') :
    ∃ L' i new, c'.matrix.Rep L' ∧ Sorted L' ∧ L'.length = max L.length (i + 1) ∧ i + 1 < sizeMax ∧
      L'.flatten.length = L.flatten.length + (if new then 1 else 0) ∧ c' = c.grown a b c'.matrix i new := by
  cases op with
  | insert i j v =>
    obtain ⟨hi, hj⟩ := hv
    obtain ⟨m, new, e1, e2, e3, e4⟩ := h1.insert h2 hi hj v
    simp only [sparseStep, SparseRoom.insert, e1, Out.ok_bind, Out.pure_eq, Out.ok.injEq] at hs
    subst hs
    refine ⟨_, i, new, e2, sorted_insRows h2 i j v, insRows_length i j v L, hi, ?_, rfl⟩
    rw [insRows_flat]
    by_cases hk : j ∈ keys (row L i)
    · have : new = false := by cases new; rfl; exact absurd hk (e4.mp rfl)
      simp [hk, this]
    · simp [hk, e4.mpr hk]
  | insertOrAssign i j v =>
    obtain ⟨hi, hj⟩ := hv
    obtain ⟨m, it, new, e1, e2, e3, e4⟩ := h1.insertOrAssign h2 hi hj v
    simp only [sparseStep, SparseRoom.insertOrAssign, e1, Out.ok_bind, Out.pure_eq, Out.ok.injEq] at hs
    subst hs
    refine ⟨_, i, new, e2, sorted_putRows h2 i j v, putRows_length i j v L, hi, ?_, rfl⟩
    rw [putRows_flat]
    by_cases hk : j ∈ keys (row L i)
    · have : new = false := by cases new; rfl; exact absurd hk (e4.mp rfl)
      simp [hk, this]
    · simp [hk, e4.mpr hk]
  | assign i j v =>
    have hj : j < sizeMax := hv
    have hi : i < L.length := by
      by_contra hc
      have : (decide (i < c.matrix.sizeRow)) = false := by rw [h1.sizeRow]; simpa using hc
      simp [sparseStep, SparseRoom.ref, Sparse.ref, this, assert] at hs
    obtain ⟨m, w, e1, e2, e3, e4, e5⟩ := h1.ref h2 hi hj
    have hil : i < (insRows i j 0 L).length := by rw [insRows_length]; omega
    have hk : j ∈ keys (row (insRows i j 0 L) i) := by
      rw [mem_keys_iff]; unfold entry; rw [e5]; simp
    obtain ⟨m2, k1, k2, k3⟩ := e2.setPos (a := i) (sorted_insRows h2 i j 0) hil hk v
    simp only [sparseStep, SparseRoom.ref, e1, Out.ok_bind, Out.pure_eq, SparseRoom.setAt, SparseRoom.grown, k1,
      Out.ok.injEq] at hs
    subst hs
    have hsm := h1.small
    refine ⟨_, i, decide (c.matrix.cols.length < m.cols.length), k3, sorted_setRow (sorted_insRows h2 i j 0) hil hk v, ?_,
      by omega, ?_, rfl⟩
    · rw [List.length_set, insRows_length]
    · rw [setRow_flat hil, insRows_flat, e2.lengths.1, h1.lengths.1, insRows_flat]
      by_cases hk : j ∈ keys (row L i) <;> simp [hk]
  | erase i j => exact ho.elim
  | resize r k => exact ho.elim
  | clear => exact ho.elim
  | reserve r n => exact ho.elim
  | shrinkToFit => exact ho.elim

theorem grown_fits {a b : Alloc} {c : SparseRoom α} {m : Sparse α} {L L' : Rows α} (h : SFits c L) {i : Nat} {new : Bool}
    (h1 : m.Rep L') (h2 : Sorted L') (h3 : L'.length = max L.length (i + 1)) (hi : i + 1 < sizeMax)
    (h4 : L'.flatten.length = L.flatten.length + (if new then 1 else 0)) : SFits (c.grown a b m i new) L' := by
  obtain ⟨k1, k2, k3, k4, k5⟩ := h
  have hw : wrap (wrap (i + 1) + 1) = i + 2 := by
    have e : wrap (i + 1) = i + 1 := by unfold wrap; unfold sizeMax at hi; exact Nat.mod_eq_of_lt (by omega)
    rw [e]; unfold wrap; unfold sizeMax at hi; exact Nat.mod_eq_of_lt (by omega)
  have e1 := off_length_eq h1 (by omega)
  have l1 := h1.lengths
  have l0 := k1.lengths
  refine ⟨h1, h2, ?_, ?_, ?_⟩
  · simp only [SparseRoom.grown, k1.sizeRow]
    split
    · rw [hw]
      have := (fit_ge a c.off c.matrix.off.length (i + 2)).2
      omega
    · have := off_length_eq k1 (by omega)
      omega
  · simp only [SparseRoom.grown]
    cases new
    · simp only [Bool.false_eq_true, if_false] at h4 ⊢; omega
    · have := (fit_ge a c.cols c.matrix.cols.length (c.matrix.cols.length + 1)).2
      simp only [if_true] at h4 ⊢
      omega
  · simp only [SparseRoom.grown]
    cases new
    · simp only [Bool.false_eq_true, if_false] at h4 ⊢; omega
    · have := (fit_ge b c.vals c.matrix.vals.length (c.matrix.vals.length + 1)).2
      simp only [if_true] at h4 ⊢
      omega

theorem grown_ge {a b : Alloc} {c : SparseRoom α} {m : Sparse α} {i : Nat} {new : Bool} :
    c.off ≤ (c.grown a b m i new).off ∧ c.cols ≤ (c.grown a b m i new).cols ∧ c.vals ≤ (c.grown a b m i new).vals := by
  refine ⟨?_, ?_, ?_⟩
  · simp only [SparseRoom.grown]; split
    · exact (fit_ge a _ _ _).1
    · exact Nat.le_refl _
  · simp only [SparseRoom.grown]; split
    · exact (fit_ge a _ _ _).1
    · exact Nat.le_refl _
  · simp only [SparseRoom.grown]; split
    · exact (fit_ge b _ _ _).1
    · exact Nat.le_refl _

/-- `resize` keeps elements in place. -/
theorem resize_room [Zero α] {a b : Alloc} {c c' : SparseRoom α} {L : Rows α} (h : SFits c L) {r k : Nat} (hr : r < sizeMax)
    (hs : c.resize a b r k = .ok c') :
    SFits c' (resRows c.matrix.colSize r k L) ∧ c'.off = a.fit c.off c.matrix.off.length (r + 1) ∧ c'.cols = c.cols ∧
      c'.vals = c.vals := by
  obtain ⟨k1, k2, k3, k4, k5⟩ := h
  obtain ⟨m, e1, e2, e3⟩ := k1.resize k2 k hr
  have hw : wrap (r + 1) = r + 1 := by unfold wrap; unfold sizeMax at hr; exact Nat.mod_eq_of_lt (by omega)
  have l0 := k1.lengths
  have l1 := e3.lengths
  have hfl := resRows_flat c.matrix.colSize r k L
  have hcap : (if r < c.matrix.sizeRow then do
      let o ← rd c.matrix.off r
      pure (a.fit c.cols c.matrix.cols.length o, b.fit c.vals c.matrix.vals.length o)
      else pure (c.cols, c.vals) : Out (Nat × Nat)) = .ok (c.cols, c.vals) := by
    split
    · rename_i hlt
      rw [k1.sizeRow] at hlt
      have hp := psum_le L r
      rw [k1.off_rd hlt (by omega), Out.ok_bind, Out.pure_eq, fit_eq a (by omega), fit_eq b (by omega)]
    · rfl
  unfold SparseRoom.resize at hs
  rw [hcap] at hs
  simp only [Out.ok_bind, e1, Out.pure_eq, Out.ok.injEq, hw] at hs
  subst hs
  refine ⟨⟨e3, sorted_resRows k2 _ _ _, ?_, ?_, ?_⟩, rfl, rfl, rfl⟩
  · have := off_length e3
    rw [resRows_length] at this
    exact Nat.le_trans this (fit_ge a _ _ _).2
  · show m.cols.length ≤ c.cols; omega
  · show m.vals.length ≤ c.vals; omega

theorem erase_room [Zero α] {a b : Alloc} {c c' : SparseRoom α} {L : Rows α} (h : SFits c L) {i j : Nat}
    (hs : sparseStep a b c (.erase i j) = .ok c') :
    ∃ L', SFits c' L' ∧ L'.length = L.length ∧ L'.flatten.length + 1 = L.flatten.length ∧ c'.off = c.off ∧ c'.cols = c.cols ∧
      c'.vals = c.vals := by
  obtain ⟨k1, k2, k3, k4, k5⟩ := h
  simp only [sparseStep, SparseRoom.erase, Out.bind_eq_ok] at hs
  obtain ⟨it, e1, ⟨c1, it1⟩, ⟨⟨m, it2⟩, e2, e3⟩, e4⟩ := hs
  simp only [Out.pure_eq, Out.ok.injEq, Prod.mk.injEq] at e3 e4
  have he : eraseAt c.matrix i j = .ok m := by simp [eraseAt, e1, e2]
  obtain ⟨hi, hj⟩ := eraseAt_row k1 he
  obtain ⟨m', f1, f2, f3⟩ := eraseAt_ok k1 k2 hi hj
  rw [he, Out.ok.injEq] at f1
  subst f1
  have hc : c' = { c with matrix := m } := by rw [← e4, ← e3.1]
  subst hc
  have hlen : (L.set i (delRow j (row L i))).flatten.length + 1 = L.flatten.length := by
    have h1 := flat_set L hi (delRow j (row L i))
    have hk : (keys L[i]).idxOf j < L[i].length := by
      rw [row_of_lt hi] at hj
      have := List.idxOf_lt_length_of_mem hj
      simpa [keys] using this
    have h2 : (delRow j (row L i)).length + 1 = L[i].length := by
      have hr := k2 i
      rw [row_of_lt hi] at hr hj ⊢
      have h3 := cut_eq_delRow hr hk
      have hg : L[i][(keys L[i]).idxOf j].1 = j := by
        have := List.getElem_idxOf (xs := keys L[i]) (x := j) (List.idxOf_lt_length_of_mem hj)
        rwa [List.getElem_map] at this
      rw [hg] at h3
      rw [← h3]
      unfold cut
      simp only [List.length_append, List.length_take, List.length_drop]
      omega
    omega
  have l0 := k1.lengths
  have l1 := f2.lengths
  have o0 := off_length_eq k1 (by omega)
  have o1 := off_length_eq f2 (by rw [List.length_set]; omega)
  rw [List.length_set] at o1
  refine ⟨_, ⟨f2, sorted_del k2 hi j, ?_, ?_, ?_⟩, by simp, hlen, rfl, rfl, rfl⟩
  · show m.off.length ≤ c.off; omega
  · show m.cols.length ≤ c.cols; omega
  · show m.vals.length ≤ c.vals; omega

theorem sparse_step [Zero α] {a b : Alloc} {c c' : SparseRoom α} {L : Rows α} (h : SFits c L) {op : SparseOp α}
    (hv : op.Valid) (hs : sparseStep a b c op = .ok c') : ∃ L', SFits c' L' := by
  by_cases ho : op.Stores
  · obtain ⟨L', i, new, e1, e2, e3, e4, e5, e6⟩ := store_step h.1 h.2.1 hv ho hs
    rw [e6]
    exact ⟨L', grown_fits h e1 e2 e3 e4 e5⟩
  · cases op with
    | insert i j v => exact absurd trivial ho
    | insertOrAssign i j v => exact absurd trivial ho
    | assign i j v => exact absurd trivial ho
    | erase i j => obtain ⟨L', h1, _⟩ := erase_room h hs; exact ⟨L', h1⟩
    | resize r k => exact ⟨_, (resize_room h hv hs).1⟩
    | clear =>
      simp only [sparseStep, SparseRoom.clear, Out.ok.injEq] at hs
      subst hs
      exact ⟨[], rep_new, fun i => by simp [row], by simp [Sparse.clear], by simp [Sparse.clear], by simp [Sparse.clear]⟩
    | reserve r n =>
      simp only [sparseStep, SparseRoom.reserve] at hs
      split at hs
      · rw [Out.ok.injEq] at hs
        subst hs
        obtain ⟨k1, k2, k3, k4, k5⟩ := h
        exact ⟨L, k1, k2, Nat.le_trans k3 (fit_ge a _ _ _).1, Nat.le_trans k4 (fit_ge a _ _ _).1,
          Nat.le_trans k5 (fit_ge b _ _ _).1⟩
      · cases hs
    | shrinkToFit =>
      simp only [sparseStep, SparseRoom.shrinkToFit, Out.ok.injEq] at hs
      subst hs
      obtain ⟨k1, k2, k3, k4, k5⟩ := h
      exact ⟨L, k1, k2, a.shrink_ge _ _ k3, a.shrink_ge _ _ k4, b.shrink_ge _ _ k5⟩

theorem sparse_run [Zero α] {a b : Alloc} {c c' : SparseRoom α} {L : Rows α} (h : SFits c L) {ops : List (SparseOp α)}
    (hv : ∀ op ∈ ops, op.Valid) (hs : sparseRun a b c ops = .ok c') : ∃ L', SFits c' L' := by
  induction ops generalizing c L with
  | nil => simp only [sparseRun, Out.ok.injEq] at hs; subst hs; exact ⟨L, h⟩
  | cons op ops ih =>
    simp only [sparseRun, Out.bind_eq_ok] at hs
    obtain ⟨c1, h1, h2⟩ := hs
    obtain ⟨L1, h3⟩ := sparse_step h (hv op (by simp)) h1
    exact ih h3 (fun op ho => hv op (by simp [ho])) h2

theorem overwrite_length {β : Type} {v v' xs : List β} {p : Nat} (h : overwrite v p xs = .ok v') : v'.length = v.length := by
  unfold overwrite at h
  split at h
  · rw [Out.ok.injEq] at h
    rw [← h]
    simp
    omega
  · cases h

/-- The constructor from lists keeps the sizes of the lists. -/
theorem ofLists_lengths [Zero α] {nz ix : List Nat} {vs : List α} {k : Nat} {m : Sparse α}
    (h : Sparse.ofLists nz ix vs k = .ok m) :
    m.off.length = nz.length ∧ m.cols.length = ix.length ∧ m.vals.length = vs.length := by
  unfold Sparse.ofLists at h
  simp only [Out.bind_eq_ok] at h
  obtain ⟨_, _, _, _, _, _, _, _, _, _, h⟩ := h
  refine loop_inv_of_ok (fun _ (m : Sparse α) => m.off.length = nz.length ∧ m.cols.length = ix.length ∧
    m.vals.length = vs.length) ⟨rfl, rfl, rfl⟩ ?_ h
  intro i s s' _ hI hb
  unfold Sparse.listBody at hb
  simp only [Out.bind_eq_ok, Out.pure_eq, Out.ok.injEq] at hb
  obtain ⟨_, _, _, _, _, _, _, _, _, _, _, _, vals, h1, cols, h2, rfl⟩ := hb
  exact ⟨hI.1, by rw [← hI.2.1]; exact overwrite_length h2, by rw [← hI.2.2]; exact overwrite_length h1⟩

theorem make_fits [Zero α] [Add α] [Neg α] [Mul α] [Div α] {a b : Alloc} {c : SparseRoom α} (h : SparseMake a b c) :
    ∃ L, SFits c L := by
  cases h with
  | new => exact ⟨[], rep_new, fun i => by simp [row], Nat.le_refl _, Nat.le_refl _, Nat.le_refl _⟩
  | @sized r k hr =>
    refine ⟨_, rep_sized hr _, fun i => by rw [row_replicate_nil]; exact List.Pairwise.nil, ?_, Nat.le_refl _, Nat.le_refl _⟩
    show (List.replicate (wrap (r + 1)) 0).length ≤ a.fit 0 0 (wrap (r + 1))
    rw [List.length_replicate]
    exact (fit_ge a _ _ _).2
  | @ofLists nz ix vs k _ hn hk hm =>
    simp only [SparseRoom.ofLists, Out.bind_eq_ok, Out.pure_eq, Out.ok.injEq] at hm
    obtain ⟨m, h1, rfl⟩ := hm
    obtain ⟨L, h2⟩ := inv_built (Built.ofLists (z := true) hn hk h1)
    obtain ⟨e1, e2, e3⟩ := ofLists_lengths h1
    refine ⟨L, h2.1, h2.2.1, ?_, ?_, ?_⟩
    · show m.off.length ≤ _; rw [e1]; exact (fit_ge a _ _ _).2
    · show m.cols.length ≤ _; rw [e2]; exact (fit_ge a _ _ _).2
    · show m.vals.length ≤ _; rw [e3]; exact (fit_ge b _ _ _).2

theorem sparse_held [Zero α] [Add α] [Neg α] [Mul α] [Div α] {a b : Alloc} {c : SparseRoom α} (h : SparseHeld a b c) :
    ∃ L, SFits c L := by
  obtain ⟨c0, ops, hm, hv, hr⟩ := h
  obtain ⟨L, h⟩ := make_fits hm
  exact sparse_run h hv hr

theorem sparse_held_run [Zero α] {a b : Alloc} {c c' : SparseRoom α} (h : SparseHeld a b c) {ops : List (SparseOp α)}
    (hv : ∀ op ∈ ops, op.Valid) (hr : sparseRun a b c ops = .ok c') : SparseHeld a b c' := by
  obtain ⟨c0, ops0, hm, hv0, hr0⟩ := h
  refine ⟨c0, ops0 ++ ops, hm, ?_, ?_⟩
  · intro op hop
    rcases List.mem_append.mp hop with h | h
    · exact hv0 op h
    · exact hv op h
  · clear hv0 hm
    induction ops0 generalizing c0 with
    | nil => simp only [sparseRun, Out.ok.injEq] at hr0; subst hr0; exact hr
    | cons op ops0 ih =>
      simp only [sparseRun, Out.bind_eq_ok, List.cons_append] at hr0 ⊢
      obtain ⟨c1, h1, h2⟩ := hr0
      exact ⟨c1, h1, ih c1 h2⟩

section
variable [Zero α] [Add α] [Neg α] [Mul α] [Div α]

/-- C151: whatever was called before, `capacity` is at least what is stored: the offsets, one more than there are rows, and
the elements. -/
theorem c151_sizes (a b : Alloc) (c : SparseRoom α) (h : SparseHeld a b c) :
    (c.matrix.sizeRow = 0 ∨ c.matrix.sizeRow + 1 ≤ c.capacity.1) ∧ c.matrix.sizeNonZero ≤ c.capacity.2 := by
  obtain ⟨L, h1, h2, h3, h4, h5⟩ := sparse_held h
  refine ⟨?_, h4⟩
  rw [h1.sizeRow]
  by_cases hL : 0 < L.length
  · right; have := off_length_eq h1 hL; show L.length + 1 ≤ c.off; omega
  · left; omega

/-- C151: if both kinds of vectors are allocated alike there is room for as many values as `capacity` says, although it only
asks the vector of the columns. -/
theorem c151_values (a : Alloc) (c : SparseRoom α) (h : SparseHeld a a c) : c.vals = c.capacity.2 := by
  obtain ⟨c0, ops, hm, hv, hr⟩ := h
  have h0 : c0.vals = c0.cols := by
    cases hm with
    | new => rfl
    | sized => rfl
    | @ofLists nz ix vs k _ hn hk hm =>
      simp only [SparseRoom.ofLists, Out.bind_eq_ok, Out.pure_eq, Out.ok.injEq] at hm
      obtain ⟨m, h1, rfl⟩ := hm
      obtain ⟨L, h2⟩ := inv_built (Built.ofLists (z := true) hn hk h1)
      obtain ⟨e1, e2, e3⟩ := ofLists_lengths h1
      have l := h2.1.lengths
      show a.fit 0 0 vs.length = a.fit 0 0 ix.length
      rw [← e2, ← e3, l.1, l.2]
  obtain ⟨L, hf⟩ := make_fits hm
  clear hm
  show c.vals = c.cols
  induction ops generalizing c0 L with
  | nil => simp only [sparseRun, Out.ok.injEq] at hr; subst hr; exact h0
  | cons op ops ih =>
    simp only [sparseRun, Out.bind_eq_ok] at hr
    obtain ⟨c1, h1, h2⟩ := hr
    have hv1 := hv op (by simp)
    obtain ⟨L1, hf1⟩ := sparse_step hf hv1 h1
    refine ih c1 (fun op ho => hv op (by simp [ho])) h2 ?_ L1 hf1
    have hl := hf.1.lengths
    by_cases ho : op.Stores
    · obtain ⟨L', i, new, _, _, _, _, _, e6⟩ := store_step hf.1 hf.2.1 hv1 ho h1
      rw [e6]
      simp only [SparseRoom.grown, h0, hl.1, hl.2]
    · cases op with
      | insert i j v => exact absurd trivial ho
      | insertOrAssign i j v => exact absurd trivial ho
      | assign i j v => exact absurd trivial ho
      | erase i j => obtain ⟨_, _, _, _, _, e1, e2⟩ := erase_room hf h1; rw [e1, e2, h0]
      | resize r k => obtain ⟨_, _, e1, e2⟩ := resize_room hf hv1 h1; rw [e1, e2, h0]
      | clear => simp only [sparseStep, SparseRoom.clear, Out.ok.injEq] at h1; subst h1; exact h0
      | reserve r n =>
        simp only [sparseStep, SparseRoom.reserve] at h1
        split at h1
        · rw [Out.ok.injEq] at h1; subst h1; simp only [h0, hl.1, hl.2]
        · cases h1
      | shrinkToFit =>
        simp only [sparseStep, SparseRoom.shrinkToFit, Out.ok.injEq] at h1
        subst h1
        simp only [h0, hl.1, hl.2]

omit [Zero α] [Add α] [Neg α] [Mul α] [Div α] in
/-- C151, sizes that do not wrap around: `reserve` ends the program or gives the capacity asked for, for the values as well,
without changing the matrix or taking capacity away. -/
theorem c151_reserve_partial (a b : Alloc) (c c' : SparseRoom α) (r n : Nat) (hr : r < sizeMax)
    (h : c.reserve a b r n = .ok c') :
    c'.matrix = c.matrix ∧ r + 1 ≤ c'.capacity.1 ∧ n ≤ c'.capacity.2 ∧ n ≤ c'.vals ∧
      c.capacity.1 ≤ c'.capacity.1 ∧ c.capacity.2 ≤ c'.capacity.2 ∧ c.vals ≤ c'.vals := by
  have hw : wrap (r + 1) = r + 1 := by unfold wrap; unfold sizeMax at hr; exact Nat.mod_eq_of_lt (by omega)
  unfold SparseRoom.reserve at h
  rw [hw] at h
  split at h
  · rw [Out.ok.injEq] at h
    subst h
    exact ⟨rfl, (fit_ge a _ _ _).2, (fit_ge a _ _ _).2, (fit_ge b _ _ _).2, (fit_ge a _ _ _).1, (fit_ge a _ _ _).1,
      (fit_ge b _ _ _).1⟩
  · cases h

/-- C151: no call but `shrink_to_fit` takes capacity away. -/
theorem c151_grow (a b : Alloc) (c c' : SparseRoom α) (h : SparseHeld a b c) (op : SparseOp α) (hv : op.Valid)
    (ho : op ≠ .shrinkToFit) (hs : sparseStep a b c op = .ok c') :
    c.capacity.1 ≤ c'.capacity.1 ∧ c.capacity.2 ≤ c'.capacity.2 ∧ c.vals ≤ c'.vals := by
  obtain ⟨L, hf⟩ := sparse_held h
  show c.off ≤ c'.off ∧ c.cols ≤ c'.cols ∧ c.vals ≤ c'.vals
  by_cases hst : op.Stores
  · obtain ⟨L', i, new, _, _, _, _, _, e6⟩ := store_step hf.1 hf.2.1 hv hst hs
    rw [e6]; exact grown_ge
  · cases op with
    | insert i j v => exact absurd trivial hst
    | insertOrAssign i j v => exact absurd trivial hst
    | assign i j v => exact absurd trivial hst
    | erase i j => obtain ⟨_, _, _, _, e0, e1, e2⟩ := erase_room hf hs; omega
    | resize r k =>
      obtain ⟨_, e0, e1, e2⟩ := resize_room hf hv hs
      have := (fit_ge a c.off c.matrix.off.length (r + 1)).1
      omega
    | clear => simp only [sparseStep, SparseRoom.clear, Out.ok.injEq] at hs; subst hs; simp
    | reserve r n =>
      simp only [sparseStep, SparseRoom.reserve] at hs
      split at hs
      · rw [Out.ok.injEq] at hs; subst hs
        exact ⟨(fit_ge a _ _ _).1, (fit_ge a _ _ _).1, (fit_ge b _ _ _).1⟩
      · cases hs
    | shrinkToFit => exact absurd rfl ho

/-- C151: `erase` and `clear` keep the capacity, and so does `resize` to at most the number of rows. -/
theorem c151_keep (a b : Alloc) (c c' : SparseRoom α) (h : SparseHeld a b c) (op : SparseOp α)
    (hs : sparseStep a b c op = .ok c')
    (hop : match op with
      | .erase _ _ => True
      | .clear => True
      | .resize r _ => r ≤ c.matrix.sizeRow ∧ 0 < c.matrix.sizeRow
      | _ => False) : c'.capacity = c.capacity ∧ c'.vals = c.vals := by
  obtain ⟨L, hf⟩ := sparse_held h
  suffices c'.off = c.off ∧ c'.cols = c.cols ∧ c'.vals = c.vals by
    unfold SparseRoom.capacity; rw [this.1, this.2.1]; exact ⟨rfl, this.2.2⟩
  cases op with
  | erase i j => obtain ⟨_, _, _, _, e⟩ := erase_room hf hs; exact e
  | clear => simp only [sparseStep, SparseRoom.clear, Out.ok.injEq] at hs; subst hs; exact ⟨rfl, rfl, rfl⟩
  | resize r k =>
    obtain ⟨h1, h2⟩ := hop
    rw [hf.1.sizeRow] at h1 h2
    have hsm := hf.1.small
    obtain ⟨_, e0, e1, e2⟩ := resize_room hf (show r < sizeMax by omega) hs
    have := off_length_eq hf.1 h2
    have := hf.2.2.1
    rw [fit_eq a (by omega)] at e0
    exact ⟨e0, e1, e2⟩
  | insert i j v => exact hop.elim
  | insertOrAssign i j v => exact hop.elim
  | assign i j v => exact hop.elim
  | reserve r n => exact hop.elim
  | shrinkToFit => exact hop.elim

omit [Add α] [Neg α] [Mul α] [Div α] in
theorem store_room {a b : Alloc} {c c' : SparseRoom α} {L : Rows α} (h : SFits c L) {op : SparseOp α} (hv : op.Valid)
    (ho : op.Stores) (hs : sparseStep a b c op = .ok c') :
    (∃ L', SFits c' L') ∧ c.matrix.sizeRow ≤ c'.matrix.sizeRow ∧ c.matrix.sizeNonZero ≤ c'.matrix.sizeNonZero ∧
    (c'.matrix.sizeRow + 1 ≤ c.off → c'.matrix.sizeNonZero ≤ c.cols → c'.matrix.sizeNonZero ≤ c.vals →
      c'.off = c.off ∧ c'.cols = c.cols ∧ c'.vals = c.vals) := by
  refine ⟨sparse_step h hv hs, ?_⟩
  obtain ⟨L', i, new, e1, e2, e3, e4, e5, e6⟩ := store_step h.1 h.2.1 hv ho hs
  have l0 := h.1.lengths
  have l1 := e1.lengths
  have hw : wrap (wrap (i + 1) + 1) = i + 2 := by
    have e : wrap (i + 1) = i + 1 := by unfold wrap; unfold sizeMax at e4; exact Nat.mod_eq_of_lt (by omega)
    rw [e]; unfold wrap; unfold sizeMax at e4; exact Nat.mod_eq_of_lt (by omega)
  refine ⟨by rw [h.1.sizeRow, e1.sizeRow]; omega, by unfold Sparse.sizeNonZero; omega, ?_⟩
  unfold Sparse.sizeNonZero
  intro k1 k2 k3
  rw [e1.sizeRow] at k1
  rw [e6]
  simp only [SparseRoom.grown]
  refine ⟨?_, ?_, ?_⟩
  · split
    · rw [hw]; exact fit_eq a (by omega)
    · rfl
  · cases new
    · rfl
    · simp only [if_true] at e5 ⊢; exact fit_eq a (by omega)
  · cases new
    · rfl
    · simp only [if_true] at e5 ⊢; exact fit_eq b (by omega)

/-- C151: what `reserve` was for.  After it, calls that store elements do not move the storage while there are at most `r`
rows and `n` elements. -/
theorem c151_reserve_insert (a b : Alloc) (c c1 c' : SparseRoom α) (h : SparseHeld a b c) (r n : Nat) (hr : r < sizeMax)
    (hres : c.reserve a b r n = .ok c1) (ops : List (SparseOp α)) (hv : ∀ op ∈ ops, op.Valid) (ho : ∀ op ∈ ops, op.Stores)
    (hi : sparseRun a b c1 ops = .ok c') (hr' : c'.matrix.sizeRow ≤ r) (hn' : c'.matrix.sizeNonZero ≤ n) :
    c'.capacity = c1.capacity ∧ c'.vals = c1.vals := by
  obtain ⟨-, g1, g2, g3, -⟩ := c151_reserve_partial a b c c1 r n hr hres
  have hh : SparseHeld a b c1 := sparse_held_run h (ops := [.reserve r n]) (by
    intro op hop; rw [List.mem_singleton.mp hop]; trivial) (by simp [sparseRun, sparseStep, hres])
  obtain ⟨L, hf⟩ := sparse_held hh
  clear hh h hres
  suffices c'.off = c1.off ∧ c'.cols = c1.cols ∧ c'.vals = c1.vals by
    unfold SparseRoom.capacity; rw [this.1, this.2.1]; exact ⟨rfl, this.2.2⟩
  replace g1 : r + 1 ≤ c1.off := g1
  replace g2 : n ≤ c1.cols := g2
  have mono : ∀ (ops : List (SparseOp α)) (c : SparseRoom α) L, SFits c L → (∀ op ∈ ops, op.Valid) →
      (∀ op ∈ ops, op.Stores) → sparseRun a b c ops = .ok c' →
      c.matrix.sizeRow ≤ c'.matrix.sizeRow ∧ c.matrix.sizeNonZero ≤ c'.matrix.sizeNonZero := by
    intro ops
    induction ops with
    | nil => intro c L _ _ _ hi; simp only [sparseRun, Out.ok.injEq] at hi; subst hi; omega
    | cons op ops ih =>
      intro c L hf hv ho hi
      simp only [sparseRun, Out.bind_eq_ok] at hi
      obtain ⟨c2, k1, k2⟩ := hi
      obtain ⟨⟨L2, k3⟩, k4, k5, _⟩ := store_room hf (hv op (by simp)) (ho op (by simp)) k1
      have := ih c2 L2 k3 (fun op h => hv op (by simp [h])) (fun op h => ho op (by simp [h])) k2
      omega
  induction ops generalizing c1 L with
  | nil => simp only [sparseRun, Out.ok.injEq] at hi; subst hi; exact ⟨rfl, rfl, rfl⟩
  | cons op ops ih =>
    simp only [sparseRun, Out.bind_eq_ok] at hi
    obtain ⟨c2, k1, k2⟩ := hi
    obtain ⟨⟨L2, k3⟩, k4, k5, k6⟩ := store_room hf (hv op (by simp)) (ho op (by simp)) k1
    have hv' := fun op' h => hv op' (List.mem_cons_of_mem op h)
    have ho' := fun op' h => ho op' (List.mem_cons_of_mem op h)
    have hm := mono ops c2 L2 k3 hv' ho' k2
    obtain ⟨k7, k8, k9⟩ := k6 (by omega) (by omega) (by omega)
    obtain ⟨j1, j2, j3⟩ := ih c2 hv' ho' k2 (by omega) L2 k3 (by omega) (by omega)
    exact ⟨by omega, by omega, by omega⟩

omit [Zero α] [Add α] [Neg α] [Mul α] [Div α] in
/-- C151: with the largest number of rows `reserve` reserves no offsets. -/
theorem c151_wrap (a b : Alloc) (c : SparseRoom α) (n : Nat) (hn : n ≤ c.cols ∧ n ≤ c.vals ∧ n ≤ a.max ∧ n ≤ b.max) :
    c.reserve a b sizeMax n = .ok c := by
  have h1 : wrap (sizeMax + 1) = 0 := by decide
  unfold SparseRoom.reserve
  rw [h1, if_pos ⟨Nat.zero_le _, hn.2.2.1, hn.2.2.2⟩, fit_eq a (Nat.zero_le _), fit_eq a hn.1, fit_eq b hn.2.1]

end

theorem c151_violated : ¬ C151 := by
  intro h
  have := (h exactAlloc exactAlloc SparseRoom.new SparseRoom.new sizeMax 0 ⟨_, [], .new, by simp, rfl⟩ (Nat.le_refl _)
    (by decide) rfl).1
  revert this
  decide

/-- The hypotheses can be met: two rows and three elements are reserved, and three elements are stored. -/
example : ∃ c1 c' : SparseRoom Int, SparseRoom.new.reserve exactAlloc exactAlloc 2 3 = .ok c1 ∧ c1.capacity = (3, 3) ∧
    sparseRun exactAlloc exactAlloc c1 [.insert 1 4 5, .insertOrAssign 0 2 7, .insert 1 4 8, .assign 1 0 3] = .ok c' ∧
    c'.matrix.sizeRow = 2 ∧ c'.matrix.sizeNonZero = 3 ∧ c'.capacity = (3, 3) :=
  ⟨_, _, rfl, rfl, rfl, rfl, rfl, rfl⟩

end Disa.Props
