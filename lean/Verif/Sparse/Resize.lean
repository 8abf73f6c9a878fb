import Verif.Sparse.Rows

/-!
# `Matrix_Sparse::resize` on rows
-/

namespace Disa
namespace Sparse

variable {α : Type} {m : Sparse α} {L : Rows α}

/-- What the column loop of `resize` leaves of a row. -/
def cropRow (c : Nat) (r : List (Nat × α)) : List (Nat × α) := r.filter (fun x => x.1 ≤ usub c 1)

theorem takeWhile_le_eq_filter {r : List (Nat × α)} (hr : (keys r).Pairwise (· < ·)) (x : Nat) :
    r.takeWhile (fun y => y.1 ≤ x) = r.filter (fun y => y.1 ≤ x) := by
  induction r with
  | nil => rfl
  | cons a r ih =>
    simp only [keys, List.map_cons, List.pairwise_cons] at hr
    by_cases h : a.1 ≤ x
    · rw [List.takeWhile_cons_of_pos (by simpa using h), List.filter_cons_of_pos (by simpa using h), ih hr.2]
    · rw [List.takeWhile_cons_of_neg (by simpa using h), List.filter_cons_of_neg (by simpa using h)]
      symm
      rw [List.filter_eq_nil_iff]
      intro y hy
      have := hr.1 y.1 (List.mem_map_of_mem (f := (·.1)) hy)
      simp; omega

theorem upperBound_ok {r : List (Nat × α)} (hr : (keys r).Pairwise (· < ·)) (x : Nat) :
    upperBound (keys r) x = .ok (r.filter (fun y => y.1 ≤ x)).length := by
  have h1 : (keys r).takeWhile (· ≤ x) = keys (r.takeWhile (fun y => y.1 ≤ x)) := by
    simp only [keys, List.takeWhile_map]; rfl
  unfold upperBound
  simp only [h1, takeWhile_le_eq_filter hr, List.length_map]
  rw [if_pos]
  rw [← takeWhile_le_eq_filter hr, List.all_eq_true]
  intro k hk
  rw [← List.map_drop, takeWhile_append_drop] at hk
  obtain ⟨y, hy, rfl⟩ := List.mem_map.mp hk
  clear hk h1
  induction r with
  | nil => simp at hy
  | cons a r ih =>
    simp only [keys, List.map_cons, List.pairwise_cons] at hr
    by_cases h : a.1 ≤ x
    · rw [List.dropWhile_cons_of_pos (by simpa using h)] at hy
      exact ih hr.2 hy
    · rw [List.dropWhile_cons_of_neg (by simpa using h)] at hy
      rcases List.mem_cons.mp hy with rfl | hy
      · simp; omega
      · have := hr.1 y.1 (List.mem_map_of_mem (f := (·.1)) hy)
        simp; omega

theorem cut_filter {r : List (Nat × α)} (hr : (keys r).Pairwise (· < ·)) (c : Nat) :
    cut r (cropRow c r).length r.length = cropRow c r := by
  unfold cut cropRow
  rw [← takeWhile_le_eq_filter hr, take_takeWhile]
  simp

/-- Rows during the loop: the first `i` are done. -/
def mid (f : List (Nat × α) → List (Nat × α)) (L : Rows α) (i : Nat) : Rows α := (L.take i).map f ++ L.drop i

theorem mid_length (f) (L : Rows α) (i : Nat) : (mid f L i).length = L.length := by simp [mid]; omega

theorem mid_getElem (f) (L : Rows α) {i : Nat} (hi : i < L.length) :
    (mid f L i)[i]'(by rw [mid_length]; exact hi) = L[i] := by
  unfold mid
  rw [List.getElem_append_right (by simp)]
  simp [Nat.min_eq_left (Nat.le_of_lt hi)]

theorem mid_succ (f) (L : Rows α) {i : Nat} (hi : i < L.length) : mid f L (i + 1) = (mid f L i).set i (f L[i]) := by
  unfold mid
  rw [List.set_append_right (h := by simp)]
  simp only [List.length_map, List.length_take, Nat.min_eq_left (Nat.le_of_lt hi), Nat.sub_self]
  rw [List.drop_eq_getElem_cons hi, List.set_cons_zero, List.take_succ_eq_append_getElem hi,
    List.map_append, List.append_assoc]
  rfl

theorem mid_end (f) (L : Rows α) : mid f L L.length = L.map f := by simp [mid]

/-- Loop invariant of the column loop in front of row `i`, for the rows `M` that the matrix has by then. -/
structure CropAt (M : Rows α) (i : Nat) (st : Sparse α × Nat) : Prop where
  len : st.1.off.length = M.length + 1
  done : ∀ k, k ≤ i → st.1.off[k]? = some (psum M k)
  todo : ∀ k, i < k → k ≤ M.length → st.1.off[k]? = some (psum M k + st.2)
  cols : st.1.cols = M.flatten.map (·.1)
  vals : st.1.vals = M.flatten.map (·.2)

theorem crop_step {M : Rows α} {c i : Nat} (hi : i < M.length) (hr : (keys M[i]).Pairwise (· < ·)) {st : Sparse α × Nat}
    (h : CropAt M i st) : ∃ st', resizeBody c i st = .ok st' ∧ CropAt (M.set i (cropRow c M[i])) (i + 1) st' := by
  have hle := psum_succ M hi
  have hcl : (cropRow c M[i]).length ≤ M[i].length := List.length_filter_le _ _
  have hpl := psum_le M (i + 1)
  have hslice : slice st.1.cols (psum M i) (psum M (i + 1)) = .ok (keys M[i]) := by
    have hc : st.1.cols = (M.map (List.map (·.1))).flatten := by rw [h.cols, List.map_flatten]
    rw [hc, ← psum_map_map M (·.1), ← psum_map_map M (·.1), slice_row _ (by simpa using hi)]
    simp
  have hpset : ∀ k, psum (M.set i (cropRow c M[i])) k =
      if k ≤ i then psum M k else psum M k - M[i].length + (cropRow c M[i]).length := by
    intro k; rw [psum_set _ hi]
  have hm : ∀ k, i < k → psum M (i + 1) ≤ psum M k := fun k hk => psum_mono _ (by omega)
  have hub : upperBound (keys M[i]) (usub c 1) = .ok (cropRow c M[i]).length := upperBound_ok hr _
  unfold resizeBody
  simp only [rd_of_some (h.todo (i + 1) (by omega) (by omega)), rd_of_some (h.done i (Nat.le_refl i)), Out.ok_bind]
  have hu : usub (psum M (i + 1) + st.2) st.2 = psum M (i + 1) := by
    rw [usub_of_le (by omega)]; omega
  rw [hu]
  simp only [hslice, hub, Out.ok_bind]
  have hdone : ∀ (st' : Sparse α × Nat) (x : Nat), st'.1.off = st.1.off.set (i + 1) x →
      x = psum M (i + 1) - M[i].length + (cropRow c M[i]).length →
      st'.2 = st.2 + (M[i].length - (cropRow c M[i]).length) →
      (∀ k, k ≤ i + 1 → st'.1.off[k]? = some (psum (M.set i (cropRow c M[i])) k)) ∧
      (∀ k, i + 1 < k → k ≤ (M.set i (cropRow c M[i])).length →
        st'.1.off[k]? = some (psum (M.set i (cropRow c M[i])) k + st'.2)) := by
    intro st' x h1 h2 h3
    rw [h1]
    constructor
    · intro k hk
      rw [hpset]
      by_cases hki : k = i + 1
      · subst hki
        rw [List.getElem?_set_self (by rw [h.len]; omega), if_neg (by omega), h2]
      · rw [List.getElem?_set_ne (by omega), h.done k (by omega), if_pos (by omega)]
    · intro k hk1 hk2
      rw [List.length_set] at hk2
      rw [hpset, List.getElem?_set_ne (by omega), h.todo k (by omega) hk2, if_neg (by omega), h3]
      have := hm k (by omega)
      congr 1; omega
  by_cases hz : (cropRow c M[i]).length = M[i].length
  · rw [if_pos (by simp; omega), wr_ok (by rw [h.len]; omega)]
    have hse : M.set i (cropRow c M[i]) = M := by
      have : cropRow c M[i] = M[i] := List.Sublist.eq_of_length List.filter_sublist hz
      rw [this]
      exact List.set_getElem_self _
    obtain ⟨h1, h2⟩ := hdone ({ st.1 with off := st.1.off.set (i + 1) (psum M (i + 1)) }, st.2) _ rfl
      (by omega) (by simp only; omega)
    refine ⟨_, rfl, ⟨by simp [h.len], h1, h2, ?_, ?_⟩⟩
    · simp only; rw [hse]; exact h.cols
    · simp only; rw [hse]; exact h.vals
  · rw [if_neg (by simp; omega)]
    have hvl : st.1.vals.length = M.flatten.length := by rw [h.vals, List.length_map]
    rw [if_pos (by rw [hvl]; exact hpl), wr_ok (by rw [h.len]; omega)]
    have hb : psum M (i + 1) - (psum M i + (cropRow c M[i]).length) = M[i].length - (cropRow c M[i]).length := by omega
    simp only [hb, Out.ok_bind, Out.pure_eq]
    have hu2 : usub (psum M (i + 1) + st.2) (st.2 + (M[i].length - (cropRow c M[i]).length)) =
        psum M (i + 1) - M[i].length + (cropRow c M[i]).length := by
      rw [usub_of_le (by omega)]; omega
    rw [hu2]
    have hcut : cut M.flatten (psum M i + (cropRow c M[i]).length) (psum M (i + 1)) =
        (M.set i (cropRow c M[i])).flatten := by
      have := cut_flatten _ hi (k := (cropRow c M[i]).length) (m := M[i].length) hcl (Nat.le_refl _)
      rw [hle, this, cut_filter hr]
    obtain ⟨h1, h2⟩ := hdone ({ st.1 with
        off := st.1.off.set (i + 1) (psum M (i + 1) - M[i].length + (cropRow c M[i]).length)
        cols := cut st.1.cols (psum M i + (cropRow c M[i]).length) (psum M (i + 1))
        vals := cut st.1.vals (psum M i + (cropRow c M[i]).length) (psum M (i + 1)) },
        st.2 + (M[i].length - (cropRow c M[i]).length)) _ rfl rfl rfl
    refine ⟨_, rfl, ⟨by simp [h.len], h1, h2, ?_, ?_⟩⟩
    · simp only; rw [← hcut, h.cols]; simp [cut, List.map_take, List.map_drop]
    · simp only; rw [← hcut, h.vals]; simp [cut, List.map_take, List.map_drop]

theorem CropAt.init (h : m.Rep L) (hL : L ≠ []) : CropAt L 0 (m, 0) := by
  have ho := h.off_eq hL
  refine ⟨by simp [ho], ?_, ?_, h.cols, h.vals⟩
  · intro k hk; simp only [ho]; exact offs_getElem? L (by omega)
  · intro k _ hk; simp only [ho, Nat.add_zero]; exact offs_getElem? L (by omega)

theorem CropAt.rep {M : Rows α} {st : Sparse α × Nat} (h : CropAt M M.length st) (hs : M.length < sizeMax) : st.1.Rep M := by
  refine ⟨.inl ?_, h.cols, h.vals, hs⟩
  rw [offs_eq_iff]
  exact ⟨h.len, h.done⟩

theorem crop_loop (h : m.Rep L) (hs : Sorted L) (c : Nat) :
    ∃ st, loop m.sizeRow (resizeBody c) (m, 0) = .ok st ∧ st.1.Rep (L.map (cropRow c)) := by
  rw [h.sizeRow]
  by_cases hL : L = []
  · subst hL
    exact ⟨(m, 0), rfl, ⟨h.offs, h.cols, h.vals, h.small⟩⟩
  have hm : mid (cropRow c) L 0 = L := by simp [mid]
  obtain ⟨st, h1, h2⟩ := loop_inv (n := L.length) (fun i st => CropAt (mid (cropRow c) L i) i st)
    (by rw [hm]; exact CropAt.init h hL) (body := resizeBody c) (s := (m, 0)) (fun i s hi hI => by
      have hr := hs i
      rw [row_of_lt hi] at hr
      have hMi := mid_getElem (cropRow c) L hi
      obtain ⟨st', k1, k2⟩ := crop_step (c := c) (by rw [mid_length]; exact hi) (by rw [hMi]; exact hr) hI
      rw [hMi, ← mid_succ _ L hi] at k2
      exact ⟨st', k1, k2⟩)
  refine ⟨st, h1, ?_⟩
  have he := mid_end (cropRow c) L
  rw [he] at h2
  exact CropAt.rep (by simpa using h2) (by simpa using h.small)

/-- Rows after `resize`. -/
def resRows (cs r c : Nat) (L : Rows α) : Rows α :=
  if c < cs then (pad (L.take r) r).map (cropRow c) else pad (L.take r) r

theorem row_take {β : Type} (L : List (List β)) (r i : Nat) : row (L.take r) i = if i < r then row L i else [] := by
  unfold row
  rw [List.getElem?_take]
  split <;> rfl

theorem row_pad_take {β : Type} (L : List (List β)) (r i : Nat) :
    row (pad (L.take r) r) i = if i < r then row L i else [] := by
  rw [row_pad, row_take]

theorem row_map_crop (L : Rows α) (c i : Nat) : row (L.map (cropRow c)) i = cropRow c (row L i) := by
  unfold row
  rw [List.getElem?_map]
  cases L[i]? <;> simp [cropRow]

theorem row_resRows (cs r c : Nat) (L : Rows α) (i : Nat) :
    row (resRows cs r c L) i = if i < r then (if c < cs then cropRow c (row L i) else row L i) else [] := by
  unfold resRows
  by_cases hc : c < cs
  · rw [if_pos hc, row_map_crop, row_pad_take, if_pos hc]
    split <;> simp [cropRow]
  · rw [if_neg hc, row_pad_take, if_neg hc]

theorem resRows_length (cs r c : Nat) (L : Rows α) : (resRows cs r c L).length = r := by
  unfold resRows
  split <;> simp [pad_length]

theorem sorted_resRows (hs : Sorted L) (cs r c : Nat) : Sorted (resRows cs r c L) := by
  intro i
  rw [row_resRows]
  split
  · split
    · exact List.Pairwise.sublist (List.Sublist.map _ List.filter_sublist) (hs i)
    · exact hs i
  · simp [keys]

theorem take_flatten {β : Type} (L : List (List β)) (r : Nat) : L.flatten.take (psum L r) = (L.take r).flatten := by
  unfold psum
  have : L.flatten = (L.take r).flatten ++ (L.drop r).flatten := by
    rw [← List.flatten_append, List.take_append_drop]
  rw [this, List.take_left]

theorem psum_take {β : Type} (L : List (List β)) {r i : Nat} (h : i ≤ r) : psum (L.take r) i = psum L i := by
  unfold psum
  rw [List.take_take, Nat.min_eq_left h]

theorem offs_getLast {β : Type} (L : List (List β)) : (Disa.offs L).getLastD 0 = L.flatten.length := by
  unfold Disa.offs
  rw [List.range_succ]
  simp [-List.length_flatten, psum_length]

theorem Rep.resize_rows [Zero α] (h : m.Rep L) {r : Nat} (hr : r < sizeMax) :
    ∃ m1, (do
      let m ← (if r < m.sizeRow then do
        let o ← rd m.off r
        pure { m with cols := resizeList m.cols o 0, vals := resizeList m.vals o 0 }
        else pure m)
      (pure { m with off := resizeList m.off (wrap (r + 1)) (if m.off.isEmpty then 0 else m.off.getLastD 0) } :
        Out (Sparse α))) = .ok m1 ∧ m1.Rep (pad (L.take r) r) ∧ m1.colSize = m.colSize := by
  have hw : wrap (r + 1) = r + 1 := by
    unfold wrap; unfold sizeMax at hr; exact Nat.mod_eq_of_lt (by omega)
  rw [hw, h.sizeRow]
  by_cases hrl : r < L.length
  · have hps := psum_le L r
    have hlen := h.lengths
    have hne : L ≠ [] := by rintro rfl; simp at hrl
    simp only [if_pos hrl, h.off_rd hrl (Nat.le_of_lt hrl), Out.ok_bind, Out.pure_eq]
    refine ⟨_, rfl, ⟨.inl ?_, ?_, ?_, ?_⟩, rfl⟩
    · simp only [h.off_eq hne]
      rw [offs_eq_iff, pad_length]
      simp only [List.length_take, Nat.min_eq_left (Nat.le_of_lt hrl), Nat.max_self]
      constructor
      · simp [resizeList]; omega
      · intro i hi
        rw [psum_pad, psum_take L hi]
        unfold resizeList
        rw [List.getElem?_append_left (by simp; omega), List.getElem?_take_of_lt (by omega), offs_getElem? L (by omega)]
    · simp only [pad, List.length_take, Nat.min_eq_left (Nat.le_of_lt hrl), Nat.sub_self, List.replicate_zero,
        List.append_nil]
      unfold resizeList
      rw [← take_flatten, h.cols, List.map_take, Nat.sub_eq_zero_of_le (by rw [List.length_map]; exact hps)]
      simp
    · simp only [pad, List.length_take, Nat.min_eq_left (Nat.le_of_lt hrl), Nat.sub_self, List.replicate_zero,
        List.append_nil]
      unfold resizeList
      rw [← take_flatten, h.vals, List.map_take, Nat.sub_eq_zero_of_le (by rw [List.length_map]; exact hps)]
      simp
    · simp [pad_length]; omega
  · simp only [if_neg hrl, Out.ok_bind, Out.pure_eq]
    rw [List.take_of_length_le (by omega)]
    refine ⟨_, rfl, ⟨.inl ?_, ?_, ?_, ?_⟩, rfl⟩
    · simp only
      rw [offs_eq_iff, pad_length, Nat.max_eq_right (by omega)]
      rcases h.offs with ho | ⟨hL, ho⟩
      · have hne : m.off.isEmpty = false := by
          cases hc : m.off with
          | nil => have := offs_length L; rw [← ho, hc] at this; simp at this
          | cons _ _ => rfl
        rw [hne]
        constructor
        · simp [resizeList, ho]; omega
        · intro i hi
          rw [psum_pad]
          unfold resizeList
          simp only [Bool.false_eq_true, if_false]
          by_cases hil : i ≤ L.length
          · rw [List.getElem?_append_left (by simp [ho]; omega), List.getElem?_take_of_lt (by omega), ho,
              offs_getElem? L hil]
          · rw [List.getElem?_append_right (by simp [ho]; omega), ho, offs_getLast, List.getElem?_replicate,
              if_pos (by simp; omega), psum_of_ge L (by omega)]
      · subst hL
        constructor
        · simp [resizeList, ho]
        · intro i hi
          rw [psum_pad]
          simp only [ho, resizeList, List.isEmpty_nil, if_true, List.take_nil, List.nil_append, List.length_nil, Nat.sub_zero,
            List.getElem?_replicate]
          rw [if_pos (by omega)]
          simp [psum]
    · simp only [pad]; rw [h.cols]; simp
    · simp only [pad]; rw [h.vals]; simp
    · have := h.small; simp [pad_length]; omega

theorem Rep.resize [Zero α] (h : m.Rep L) (hs : Sorted L) {r : Nat} (c : Nat) (hr : r < sizeMax) :
    ∃ m', m.resize r c = .ok m' ∧ m'.colSize = c ∧ m'.Rep (resRows m.colSize r c L) := by
  obtain ⟨m1, h1, h2, h3⟩ := h.resize_rows hr
  have hs1 : Sorted (pad (L.take r) r) := by
    intro i
    rw [row_pad_take]
    split
    · exact hs i
    · simp [keys]
  have key : m.resize r c = (do
      let m ← (do
        let m ← (if r < m.sizeRow then do
          let o ← rd m.off r
          pure { m with cols := resizeList m.cols o 0, vals := resizeList m.vals o 0 }
          else pure m)
        (pure { m with off := resizeList m.off (wrap (r + 1)) (if m.off.isEmpty then 0 else m.off.getLastD 0) } :
          Out (Sparse α)))
      let m ← (if c < m.colSize then do
        let (m, _) ← loop m.sizeRow (resizeBody c) (m, 0)
        pure m
        else pure m)
      pure { m with colSize := c }) := by
    unfold Sparse.resize
    rw [bind_assoc]
    rfl
  rw [key, h1]
  simp only [Out.ok_bind]
  unfold resRows
  rw [h3]
  by_cases hc : c < m.colSize
  · obtain ⟨st, h4, h5⟩ := crop_loop h2 hs1 c
    simp only [if_pos hc, h4, Out.ok_bind, Out.pure_eq]
    exact ⟨_, rfl, rfl, ⟨h5.offs, h5.cols, h5.vals, h5.small⟩⟩
  · simp only [if_neg hc, Out.ok_bind, Out.pure_eq]
    exact ⟨_, rfl, rfl, ⟨h2.offs, h2.cols, h2.vals, h2.small⟩⟩

end Sparse
end Disa
