import Verif.Sparse.Built
import Verif.Spec.CsrData

/-!
# Properties C37 and C70: `CSR_Data` and rows
-/

namespace Disa.Props

open Disa Spec Sparse

variable {α : Type}

/-! ### Relation to the functions of `Matrix_Sparse` -/

theorem csr_sizeRow (m : CsrData α) : CsrData.sizeRow m = Sparse.sizeRow m := by
  unfold CsrData.sizeRow Sparse.sizeRow
  cases h : m.off.isEmpty <;> simp [h]

theorem csr_resize [Zero α] (m : CsrData α) (r c : Nat) : CsrData.resize m r c = Sparse.resize m r c := by
  unfold CsrData.resize Sparse.resize
  simp only [csr_sizeRow, CsrData.sizeColumn]
  rfl

theorem csr_lowerBound {m : CsrData α} {L : Rows α} (h : m.Rep L) (hs : Sorted L) {i : Nat} (hi : i < L.length) (j : Nat) :
    CsrData.lowerBound m i j =
      .ok (if pos j L[i] = L[i].length then i + 1 else i, psum L i + pos j L[i], psum L i + pos j L[i]) := by
  have hr := hs i
  rw [row_of_lt hi] at hr
  have hle := psum_add_le L hi (pos_le j L[i])
  have hlen := h.lengths
  have hp := psum_succ L hi
  unfold CsrData.lowerBound
  rw [if_pos (by rw [csr_sizeRow, h.sizeRow]; exact hi)]
  simp only [h.off_rd hi (Nat.le_of_lt hi), h.off_rd hi hi, h.slice_keys hi, lowerBound_ok hr, Out.ok_bind, Out.pure_eq]
  rw [show ((keys L[i]).takeWhile (· < j)).length = pos j L[i] from rfl, if_pos (by omega)]
  by_cases hpl : pos j L[i] = L[i].length
  · rw [if_pos hpl, if_neg (by simp; omega)]
  · rw [if_neg hpl, if_pos (by simp; omega)]

theorem csrLookup_ok {m : CsrData α} {L : Rows α} (h : m.Rep L) (hs : Sorted L) {i : Nat} (hi : i < L.length) (j : Nat) :
    csrLookup m i j = .ok (entry L i j) := by
  have hr := hs i
  rw [row_of_lt hi] at hr
  unfold csrLookup
  simp only [csr_lowerBound h hs hi, Out.ok_bind]
  by_cases hpl : pos j L[i] = L[i].length
  · rw [if_pos hpl, if_neg (by simp), Out.pure_eq, Out.ok.injEq]
    symm
    unfold entry
    rw [lookup_eq_none, row_of_lt hi]
    intro hk
    rcases pos_cases hr j with ⟨h1, _⟩ | ⟨_, h1, _⟩
    · exact h1 hk
    · omega
  · have hlt : pos j L[i] < L[i].length := by have := pos_le j L[i]; omega
    have hc := h.colAt (a := i) hi hlt
    unfold Sparse.colAt at hc
    rw [if_neg hpl, if_pos (by simp), hc, Out.ok_bind]
    by_cases hj : j ∈ keys L[i]
    · rcases pos_cases hr j with ⟨h1, _⟩ | ⟨_, _, h2⟩
      · exact absurd hj h1
      · have hv := h.valAt (a := i) hi hlt
        unfold Sparse.valAt at hv
        rw [if_pos (by simpa using h2), hv]
        simp only [Out.ok_bind, Out.pure_eq, Out.ok.injEq]
        symm
        unfold entry
        rw [row_of_lt hi, lookup_eq_some hr]
        have := List.getElem_mem hlt
        rwa [show L[i][pos j L[i]] = (j, L[i][pos j L[i]].2) from Prod.ext h2 rfl] at this
    · rw [if_neg, Out.pure_eq, Out.ok.injEq]
      · symm; unfold entry; rw [lookup_eq_none, row_of_lt hi]; exact hj
      · intro hcj
        simp only [beq_iff_eq] at hcj
        exact hj (hcj ▸ List.mem_map_of_mem (List.getElem_mem hlt))

/-- The result of `insert` of the old class, with the iterator of the new one. -/
theorem csr_insert [Zero α] {m : CsrData α} {L : Rows α} (h : m.Rep L) (hs : Sorted L) {i j : Nat} (hi : i + 1 < sizeMax)
    (hj : j < sizeMax) (v : α) {m' : CsrData α} {it : Iter} {b : Bool} (hins : Sparse.insert m i j v = .ok (m', it, b)) :
    CsrData.insert m i j v = .ok (m', (i, it.2, it.2), b) := by
  have hwi : wrap (i + 1) = i + 1 := by unfold wrap; unfold sizeMax at hi; exact Nat.mod_eq_of_lt (by omega)
  have hwj : wrap (j + 1) = j + 1 := by unfold wrap; unfold sizeMax at hj; exact Nat.mod_eq_of_lt (by omega)
  unfold Sparse.insert at hins
  unfold CsrData.insert
  simp only [csr_sizeRow, CsrData.sizeColumn, csr_resize]
  rw [Out.bind_eq_ok] at hins
  obtain ⟨m1, e1, hins⟩ := hins
  rw [Out.bind_eq_ok] at hins
  obtain ⟨m2, e2, hins⟩ := hins
  obtain ⟨L1, r1, s1, l1⟩ : ∃ L1, m1.Rep L1 ∧ Sorted L1 ∧ i < L1.length := by
    rw [h.sizeRow, hwi] at e1
    by_cases hil : i ≥ L.length
    · rw [if_pos hil] at e1
      obtain ⟨m3, h1, h2, h3⟩ := h.resize hs m.colSize (r := i + 1) (by omega)
      rw [h1, Out.ok.injEq] at e1
      subst e1
      exact ⟨_, h3, sorted_resRows hs _ _ _, by rw [resRows_length]; omega⟩
    · rw [if_neg hil, Out.pure_eq, Out.ok.injEq] at e1
      subst e1
      exact ⟨L, h, hs, by omega⟩
  obtain ⟨L2, r2, s2, l2⟩ : ∃ L2, m2.Rep L2 ∧ Sorted L2 ∧ i < L2.length := by
    rw [r1.sizeRow, hwj] at e2
    by_cases hjl : j ≥ m1.colSize
    · rw [if_pos hjl] at e2
      obtain ⟨m3, h1, h2, h3⟩ := r1.resize s1 (j + 1) r1.small
      rw [h1, Out.ok.injEq] at e2
      subst e2
      exact ⟨_, h3, sorted_resRows s1 _ _ _, by rw [resRows_length]; exact l1⟩
    · rw [if_neg hjl, Out.pure_eq, Out.ok.injEq] at e2
      subst e2
      exact ⟨L1, r1, s1, l1⟩
  rw [e1, Out.ok_bind, e2, Out.ok_bind]
  have hp := psum_succ L2 l2
  have hple := pos_le j L2[i]
  unfold Sparse.insertCore at hins
  have hb : (decide (i < m2.sizeRow)) = true := by simp [r2.sizeRow, l2]
  simp only [r2.lowerBound s2 l2, r2.rowEnd l2, hb, assert_true, Out.ok_bind] at hins
  simp only [csr_lowerBound r2 s2 l2, Out.ok_bind]
  by_cases hpl : pos j L2[i] = L2[i].length
  · rw [if_pos (by simp; omega)] at hins
    simp only [Out.pure_eq, Out.ok_bind, if_true, Out.ok.injEq, Prod.mk.injEq] at hins
    obtain ⟨rfl, rfl, rfl⟩ := hins
    rw [if_pos hpl]
    simp
  · rw [if_neg (by simp; omega)] at hins
    have hc := r2.colAt (a := i) l2 (k := pos j L2[i]) (by omega)
    simp only [hc, Out.pure_eq, Out.ok_bind] at hins
    unfold Sparse.colAt at hc
    rw [if_neg hpl]
    simp only [beq_self_eq_true, if_true, hc, Out.ok_bind, Out.pure_eq]
    by_cases hcj : L2[i][pos j L2[i]].1 = j
    · rw [if_neg (by simp [hcj])] at hins
      simp only [Out.ok.injEq, Prod.mk.injEq] at hins
      obtain ⟨rfl, rfl, rfl⟩ := hins
      simp [hcj]
    · rw [if_pos (by simp [hcj])] at hins
      simp only [Out.ok.injEq, Prod.mk.injEq] at hins
      obtain ⟨rfl, rfl, rfl⟩ := hins
      simp [hcj]

theorem csr_insertOrAssign [Zero α] {m : CsrData α} {L : Rows α} (h : m.Rep L) (hs : Sorted L) {i j : Nat}
    (hi : i + 1 < sizeMax) (hj : j < sizeMax) (v : α) :
    ∃ m' it b, CsrData.insertOrAssign m i j v = .ok (m', it, b) ∧ m'.Rep (putRows i j v L) ∧
      m'.colSize = max m.colSize (j + 1) ∧ (b = true ↔ j ∉ keys (row L i)) := by
  obtain ⟨m1, b, h1, _, _, _⟩ := h.insert hs hi hj v
  obtain ⟨m2, it, b2, k1, k2, k3, k4⟩ := h.insertOrAssign hs hi hj v
  refine ⟨m2, (i, psum (pad L (i + 1)) i + pos j (row L i), psum (pad L (i + 1)) i + pos j (row L i)), b2, ?_, k2, k3, k4⟩
  · unfold Sparse.insertOrAssign at k1
    rw [h1] at k1
    unfold CsrData.insertOrAssign
    rw [csr_insert h hs hi hj v h1]
    simp only [Out.ok_bind] at k1 ⊢
    cases b with
    | true =>
      simp only [if_true, Out.pure_eq, Out.ok.injEq, Prod.mk.injEq] at k1
      obtain ⟨rfl, _, rfl⟩ := k1
      rfl
    | false =>
      simp only [Bool.false_eq_true, if_false] at k1
      unfold Sparse.setAt at k1
      simp only [Bool.not_false, if_true]
      cases hw : wr m1.vals (psum (pad L (i + 1)) i + pos j (row L i)) v with
      | ok vals =>
        rw [hw] at k1
        simp only [Out.ok_bind, Out.pure_eq, Out.ok.injEq, Prod.mk.injEq] at k1 ⊢
        obtain ⟨rfl, _, rfl⟩ := k1
        exact ⟨rfl, trivial, rfl⟩
      | _ => rw [hw] at k1; cases k1

/-! ### C37 -/

/-- The data shows the map. -/
def Agrees (m : CsrData α) (s : SizedMap α) : Prop :=
  ∃ L, m.Rep L ∧ Sorted L ∧ Bounded m.colSize L ∧ L.length = s.rows ∧ m.colSize = s.columns ∧ entry L = s.map

theorem csrStep_ok [Zero α] {m : CsrData α} {s : SizedMap α} (h : Agrees m s) (op : CsrOp α) (hop : op.Fits) :
    ∃ m', csrStep m op = .ok (m', (sizedStep s op).2) ∧ Agrees m' (sizedStep s op).1 := by
  obtain ⟨L, h1, h2, h3, h4, h5, h6⟩ := h
  have isNone_iff : ∀ i j, (s.map i j).isNone = true ↔ j ∉ keys (row L i) := by
    intro i j
    rw [mem_keys_iff, h6, not_not, Option.isNone_iff_eq_none]
  cases op with
  | insert i j v =>
    obtain ⟨m1, b, k1, k2, k3, k4⟩ := h1.insert h2 hop.1 hop.2 v
    have hb : b = (s.map i j).isNone := Bool.eq_iff_iff.mpr (k4.trans (isNone_iff i j).symm)
    refine ⟨m1, ?_, insRows i j v L, k2, sorted_insRows h2 _ _ _, ?_, by rw [insRows_length, h4]; rfl,
      by rw [k3, h5]; rfl, ?_⟩
    · simp only [csrStep, csr_insert h1 h2 hop.1 hop.2 v k1, Out.ok_bind, Out.pure_eq, hb]
      rfl
    · rw [bounded_entry]
      intro a c hne
      rw [entry_insRows h2] at hne
      rw [k3]
      split at hne
      · omega
      · have := bounded_entry.mp h3 a c hne
        omega
    · funext a c
      rw [entry_insRows h2, h6]
      simp only [sizedStep]
      cases hm : s.map i j with
      | none => simp [Map.put]
      | some x => simp
  | insertOrAssign i j v =>
    obtain ⟨m1, it, b, k1, k2, k3, k4⟩ := csr_insertOrAssign h1 h2 hop.1 hop.2 v
    have hb : b = (s.map i j).isNone := Bool.eq_iff_iff.mpr (k4.trans (isNone_iff i j).symm)
    refine ⟨m1, ?_, putRows i j v L, k2, sorted_putRows h2 _ _ _, ?_, by rw [putRows_length, h4]; rfl,
      by rw [k3, h5]; rfl, ?_⟩
    · simp only [csrStep, k1, Out.ok_bind, Out.pure_eq, hb]
      rfl
    · rw [bounded_entry]
      intro a c hne
      rw [entry_putRows h2] at hne
      rw [k3]
      split at hne
      · omega
      · have := bounded_entry.mp h3 a c hne
        omega
    · funext a c
      rw [entry_putRows h2, h6]
      rfl
  | resize r c =>
    obtain ⟨hr, hc⟩ := hop
    obtain ⟨m1, k1, k2, k3⟩ := h1.resize h2 c hr
    have hu : usub c 1 = c - 1 := usub_of_le (by omega)
    have he : entry (resRows m.colSize r c L) = (sizedStep s (.resize r c)).1.map := by
      funext a b
      rw [entry_resRows, hu, h6]
      simp only [sizedStep]
      by_cases hrc : a < r ∧ b < c
      · rw [if_pos ⟨hrc.1, fun _ => by omega⟩, if_pos hrc]
      · rw [if_neg hrc]
        split
        · rename_i hh
          by_contra hne
          rw [← h6] at hne
          have := bounded_entry.mp h3 a b hne
          by_cases hcs : c < m.colSize
          · have := hh.2 hcs
            omega
          · omega
        · rfl
    refine ⟨m1, ?_, resRows m.colSize r c L, k3, sorted_resRows h2 _ _ _, ?_, by rw [resRows_length]; rfl, k2, he⟩
    · simp only [csrStep, csr_resize, k1, Out.ok_bind, Out.pure_eq]
      rfl
    · rw [bounded_entry]
      intro a b hne
      rw [he] at hne
      simp only [sizedStep] at hne
      split at hne
      · omega
      · exact absurd rfl hne

theorem csrRun_ok [Zero α] (ops : List (CsrOp α)) {m : CsrData α} {s : SizedMap α} (h : Agrees m s)
    (hop : ∀ op ∈ ops, op.Fits) :
    ∃ m', csrRun m ops = .ok (m', (sizedRun s ops).2) ∧ Agrees m' (sizedRun s ops).1 := by
  induction ops generalizing m s with
  | nil => exact ⟨m, rfl, h⟩
  | cons op ops ih =>
    obtain ⟨m1, h1, h2⟩ := csrStep_ok h op (hop op (by simp))
    obtain ⟨m2, k1, k2⟩ := ih h2 (fun o ho => hop o (by simp [ho]))
    refine ⟨m2, ?_, k2⟩
    unfold csrRun sizedRun
    simp only [h1, k1, Out.ok_bind, Out.pure_eq]

theorem agrees_new : Agrees (CsrData.new : CsrData α) ⟨0, 0, fun _ _ => none⟩ :=
  ⟨[], ⟨.inr ⟨rfl, rfl⟩, rfl, rfl, by simp [sizeMax]⟩, fun i => by simp [row], fun i x hx => by simp [row] at hx, rfl, rfl, by
    funext i j; simp [entry, row]⟩

/-- C37: after any history of `insert`, `insert_or_assign` and `resize` on new data, with any indices that fit and at least
one column asked for, all calls have returned what the finite map gives, the sizes are right, and a lookup in any row sees
what the map holds. -/
theorem c37_finite_map [Zero α] (ops : List (CsrOp α)) (hop : ∀ op ∈ ops, op.Fits) :
    ∃ m, csrRun (CsrData.new : CsrData α) ops = .ok (m, (sizedRun ⟨0, 0, fun _ _ => none⟩ ops).2) ∧
      CsrData.sizeRow m = (sizedRun (⟨0, 0, fun _ _ => none⟩ : SizedMap α) ops).1.rows ∧
      CsrData.sizeColumn m = (sizedRun (⟨0, 0, fun _ _ => none⟩ : SizedMap α) ops).1.columns ∧
      (∀ i j, i < CsrData.sizeRow m → csrLookup m i j = .ok ((sizedRun ⟨0, 0, fun _ _ => none⟩ ops).1.map i j)) ∧
      ∀ i j, CsrData.sizeRow m ≤ i → CsrData.lowerBound m i j = .ok (m.off.length, m.cols.length, m.vals.length) := by
  obtain ⟨m, h1, L, h2, h3, h4, h5, h6, h7⟩ := csrRun_ok ops agrees_new hop
  refine ⟨m, h1, by rw [csr_sizeRow, h2.sizeRow, h5], h6, ?_, ?_⟩
  · intro i j hi
    rw [csr_sizeRow, h2.sizeRow] at hi
    rw [csrLookup_ok h2 h3 hi, h7]
  · intro i j hi
    unfold CsrData.lowerBound
    rw [if_neg (by omega)]; rfl

example : ∃ m, csrRun (CsrData.new : CsrData Int) [.insert 1 2 5, .insert 0 1 6, .insert 1 2 7, .insertOrAssign 1 0 8, .resize 2 2,
      .insert 0 3 9] = .ok (m, [some true, some true, some false, some true, none, some true]) ∧
    csrLookup m 1 2 = .ok none ∧ csrLookup m 1 0 = .ok (some 8) ∧ csrLookup m 0 3 = .ok (some 9) ∧ CsrData.sizeColumn m = 4 :=
  ⟨⟨[0, 2, 3], [1, 3, 0], [6, 9, 8], 4⟩, by decide +kernel⟩

/-- C37, outside of the claim: `resize` to zero columns keeps all elements of the remaining rows. -/
example : ∃ m, CsrData.resize (⟨[0, 1, 2], [0, 1], [5, 7], 2⟩ : CsrData Int) 2 0 = .ok m ∧ CsrData.sizeNonZero m = 2 ∧
    CsrData.sizeColumn m = 0 := ⟨⟨[0, 1, 2], [0, 1], [5, 7], 0⟩, by decide +kernel⟩

/-! ### C70 -/

/-- Data that some history leads to. -/
def Reached [Zero α] (m : CsrData α) : Prop :=
  ∃ ops bs, (∀ op ∈ ops, op.Fits) ∧ csrRun (CsrData.new : CsrData α) ops = .ok (m, bs)

theorem reached_agrees [Zero α] {m : CsrData α} (h : Reached m) : ∃ s, Agrees m s := by
  obtain ⟨ops, bs, h1, h2⟩ := h
  obtain ⟨m', h3, h4⟩ := csrRun_ok ops agrees_new h1
  rw [h2, Out.ok.injEq, Prod.mk.injEq] at h3
  rw [h3.1]
  exact ⟨_, h4⟩

theorem view_make {m : CsrData α} {L : Rows α} (h : m.Rep L) {i : Nat} (hi : i < L.length) :
    RowView.make m i = .ok ⟨i, psum L i, psum L (i + 1)⟩ := by
  have hl := h.lengths
  have h1 := psum_le L (i + 1)
  have h2 := psum_succ L hi
  unfold RowView.make
  simp only [h.off_rd hi (Nat.le_of_lt hi), h.off_rd hi (show i + 1 ≤ L.length from hi), Out.ok_bind]
  rw [if_pos (by omega)]; rfl

theorem view_at {m : CsrData α} {L : Rows α} (h : m.Rep L) {i : Nat} (hi : i < L.length) (j : Nat) :
    RowView.at' m ⟨i, psum L i, psum L (i + 1)⟩ j = match entry L i j with
      | some v => .ok v
      | none => .exit 1 := by
  unfold RowView.at'
  simp only [h.slice_keys hi, Out.ok_bind]
  unfold entry
  rw [row_of_lt hi]
  by_cases hj : j ∈ keys L[i]
  · obtain ⟨hlt, hl⟩ := lookup_idxOf hj
    rw [hl]
    have hne : ((keys L[i]).idxOf j != (keys L[i]).length) = true := by
      have := List.idxOf_lt_length_iff.mpr hj
      simp only [bne_iff_ne]; omega
    have hv := h.valAt (a := i) hi hlt
    unfold Sparse.valAt at hv
    rw [hne, assert_true, Out.ok_bind]
    exact hv
  · rw [lookup_eq_none.mpr hj, List.idxOf_of_notMem hj]
    simp only [bne_self_eq_false]
    rfl

/-- C70: assigning to an element through a row stores it, whether it was there or not, and changes no other element; the
row then reads as the stored data does, in all columns: present elements are returned, absent ones exit. -/
theorem c70_row_assign [Zero α] (m : CsrData α) (hm : Reached m) (i j : Nat) (v : α) (hi : i < CsrData.sizeRow m)
    (hj : j < sizeMax) (hi' : i + 1 < sizeMax) :
    ∃ view m' view', RowView.make m i = .ok view ∧ RowView.assign m view j v = .ok (m', view') ∧ Reached m' ∧
      RowView.make m' i = .ok view' ∧
      (∀ a b, a < CsrData.sizeRow m → csrLookup m' a b = if a = i ∧ b = j then .ok (some v) else csrLookup m a b) ∧
      ∀ b, RowView.at' m' view' b = if b = j then .ok v else RowView.at' m view b := by
  obtain ⟨s, L, h1, h2, h3, h4, h5, h6⟩ := reached_agrees hm
  rw [csr_sizeRow, h1.sizeRow] at hi
  obtain ⟨m1, it, b, k1, k2, k3, k4⟩ := csr_insertOrAssign h1 h2 hi' hj v
  have hlen : (putRows i j v L).length = L.length := by rw [putRows_length]; omega
  refine ⟨_, m1, _, view_make h1 hi, ?_, ?_, view_make k2 (by omega), ?_, ?_⟩
  · unfold RowView.assign
    simp only [k1, Out.ok_bind, view_make k2 (show i < (putRows i j v L).length by omega), Out.pure_eq]
  · obtain ⟨ops, bs, g1, g2⟩ := hm
    refine ⟨ops ++ [.insertOrAssign i j v], bs ++ [some b], ?_, ?_⟩
    · intro op hop
      rcases List.mem_append.mp hop with hop | hop
      · exact g1 op hop
      · rw [List.mem_singleton.mp hop]; exact ⟨hi', hj⟩
    · have happ : ∀ (ops : List (CsrOp α)) (m0 : CsrData α) (bs : List (Option Bool)), csrRun m0 ops = .ok (m, bs) →
          csrRun m0 (ops ++ [.insertOrAssign i j v]) = .ok (m1, bs ++ [some b]) := by
        intro ops
        induction ops with
        | nil =>
          intro m0 bs h
          simp only [csrRun, Out.ok.injEq, Prod.mk.injEq] at h
          obtain ⟨rfl, rfl⟩ := h
          simp [csrRun, csrStep, k1]
        | cons op ops ih =>
          intro m0 bs h
          unfold csrRun at h
          rw [Out.bind_eq_ok] at h
          obtain ⟨x, hx, h⟩ := h
          rw [Out.bind_eq_ok] at h
          obtain ⟨y, hy, h⟩ := h
          obtain ⟨y1, y2⟩ := y
          simp only [Out.pure_eq, Out.ok.injEq, Prod.mk.injEq] at h
          obtain ⟨rfl, rfl⟩ := h
          have := ih _ _ hy
          rw [List.cons_append]
          unfold csrRun
          simp only [hx, this, Out.ok_bind, Out.pure_eq, List.cons_append]
      exact happ ops _ _ g2
  · intro a c ha
    rw [csr_sizeRow, h1.sizeRow] at ha
    rw [csrLookup_ok k2 (sorted_putRows h2 _ _ _) (by omega), csrLookup_ok h1 h2 ha, entry_putRows h2]
    split <;> rfl
  · intro c
    rw [view_at k2 (by omega), view_at h1 hi, entry_putRows h2]
    by_cases hc : c = j
    · simp [hc]
    · simp [hc]

/-- C70: reading through a row agrees with the lookup. -/
theorem c70_row_read [Zero α] (m : CsrData α) (hm : Reached m) (i j : Nat) (hi : i < CsrData.sizeRow m) :
    ∃ view o, RowView.make m i = .ok view ∧ csrLookup m i j = .ok o ∧
      RowView.at' m view j = match o with
        | some v => .ok v
        | none => .exit 1 := by
  obtain ⟨s, L, h1, h2, h3, h4, h5, h6⟩ := reached_agrees hm
  rw [csr_sizeRow, h1.sizeRow] at hi
  exact ⟨_, _, view_make h1 hi, csrLookup_ok h1 h2 hi j, view_at h1 hi j⟩

example : Reached (⟨[0, 2, 3], [1, 3, 0], [6, 9, 8], 4⟩ : CsrData Int) :=
  ⟨[.insert 1 2 5, .insert 0 1 6, .insert 1 2 7, .insertOrAssign 1 0 8, .resize 2 2, .insert 0 3 9],
    [some true, some true, some false, some true, none, some true], by
    simp [CsrOp.Fits, sizeMax], by decide +kernel⟩
example : RowView.assign (⟨[0, 2, 3], [1, 3, 0], [6, 9, 8], 4⟩ : CsrData Int) ⟨0, 0, 2⟩ 2 7 =
    .ok (⟨[0, 3, 4], [1, 2, 3, 0], [6, 7, 9, 8], 4⟩, ⟨0, 0, 3⟩) := by decide +kernel

end Disa.Props
