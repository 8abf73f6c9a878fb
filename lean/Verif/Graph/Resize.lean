import Verif.Graph.Rows

/-! # Row level effect of a shrinking `resize` -/

namespace Disa

theorem takeWhile_lt_eq_filter {r : List Nat} (h : r.Pairwise (· < ·)) (n : Nat) :
    r.takeWhile (· < n) = r.filter (· < n) := by
  induction r with
  | nil => rfl
  | cons a r ih =>
    rw [List.pairwise_cons] at h
    rw [List.takeWhile_cons, List.filter_cons]
    split
    · rename_i ha; rw [ih h.2]
    · rename_i ha
      symm
      rw [List.filter_eq_nil_iff]
      intro x hx
      have := h.1 x hx
      simp at ha ⊢; omega

namespace Graph

/-- Rows after trimming the first `v` rows of `L`, row `i` to entries below `n i`. -/
def trimTo (n : Nat → Nat) (L : List (List Nat)) (v : Nat) : List (List Nat) :=
  L.mapIdx fun i r => if i < v then r.takeWhile (· < n i) else r

@[simp] theorem trimTo_length (n : Nat → Nat) (L : List (List Nat)) (v : Nat) : (trimTo n L v).length = L.length := by
  simp [trimTo]

theorem trimTo_zero (n : Nat → Nat) (L : List (List Nat)) : trimTo n L 0 = L := by
  apply List.ext_getElem (by simp)
  intro i h1 h2; simp [trimTo]

theorem trimTo_getElem (n : Nat → Nat) (L : List (List Nat)) (v i : Nat) (h : i < (trimTo n L v).length) :
    (trimTo n L v)[i] = if i < v then (L[i]'(by simpa using h)).takeWhile (· < n i) else L[i]'(by simpa using h) := by
  simp [trimTo]

theorem row_trimTo (n : Nat → Nat) (L : List (List Nat)) (v i : Nat) :
    row (trimTo n L v) i = if i < v then (row L i).takeWhile (· < n i) else row L i := by
  by_cases h : i < L.length
  · rw [row_of_lt (by simpa using h), trimTo_getElem, row_of_lt h]
  · rw [row_of_ge (by simpa using h), row_of_ge (by omega)]; simp

theorem trimTo_succ (n : Nat → Nat) (L : List (List Nat)) {v : Nat} (h : v < L.length) :
    trimTo n L (v + 1) = (trimTo n L v).set v ((row L v).takeWhile (· < n v)) := by
  apply rows_ext (by simp)
  intro i
  rw [row_set (by simpa using h), row_trimTo, row_trimTo]
  by_cases hi : i = v
  · subst hi; simp
  · rw [if_neg hi]
    split <;> split <;> first | rfl | omega

/-- Invariant of the shrinking loop. -/
structure ResizeInv (n : Nat → Nat) (L : List (List Nat)) (v : Nat) (s : List Nat × List Nat × Nat) : Prop where
  adj : s.2.1 = (trimTo n L v).flatten
  carry : s.2.2 + psum (trimTo n L v) v = psum L v
  len : s.1.length = L.length + 1
  off : ∀ i, i ≤ L.length → s.1[i]? = some (if i ≤ v + 1 then psum (trimTo n L v) i else psum L i)

theorem psum_trimTo_after (n : Nat → Nat) (L : List (List Nat)) {v i : Nat} (h : v ≤ i) (hi : i ≤ L.length) :
    psum (trimTo n L v) i + psum L v = psum (trimTo n L v) v + psum L i := by
  induction i with
  | zero => have : v = 0 := by omega
            subst this; rfl
  | succ i ih =>
    by_cases hv : v = i + 1
    · subst hv; rfl
    · rw [psum_succ L (by omega), psum_succ _ (by simp; omega), trimTo_getElem, if_neg (by omega)]
      have := ih (by omega) (by omega)
      omega

theorem psum_trimTo_succ_before (n : Nat → Nat) (L : List (List Nat)) {v i : Nat} (h : i ≤ v) (hv : v < L.length) :
    psum (trimTo n L (v + 1)) i = psum (trimTo n L v) i := by
  rw [trimTo_succ n L hv, psum_set _ (by simpa using hv), if_pos h]

theorem resizeBody_ok {n : Nat → Nat} {L : List (List Nat)} (hs : ∀ i, (row L i).Pairwise (· < ·)) {v : Nat}
    {s : List Nat × List Nat × Nat} (hI : ResizeInv n L v s) (hv : v < L.length) (strict : Bool)
    (hst : strict = true → v + 1 < L.length) :
    ∃ s', resizeBody strict (n v) v s = .ok s' ∧ ResizeInv n L (v + 1) s' := by
  obtain ⟨off, adj, carry⟩ := s
  obtain ⟨hadj, hcarry, hlen, hoff⟩ := hI
  simp only at hadj hcarry hlen hoff
  have hvt : v < (trimTo n L v).length := by simpa using hv
  have hrow : row (trimTo n L v) v = row L v := by rw [row_trimTo]; simp
  have r1 : rd off v = .ok (psum (trimTo n L v) v) := rd_of_some (by rw [hoff v (by omega), if_pos (by omega)])
  have r2 : rd off (v + 1) = .ok (psum (trimTo n L v) (v + 1)) :=
    rd_of_some (by rw [hoff (v + 1) (by omega), if_pos (by omega)])
  have hsl := slice_row (trimTo n L v) hvt
  rw [← row_of_lt hvt, hrow] at hsl
  have hps := psum_succ (trimTo n L v) hvt
  rw [← row_of_lt hvt, hrow] at hps
  have hpsL := psum_succ L hv
  rw [← row_of_lt hv] at hpsL
  have hlb := lowerBound_ok (hs v) (n v)
  have hle : ((row L v).takeWhile (· < n v)).length ≤ (row L v).length := List.Sublist.length_le (List.takeWhile_sublist _)
  generalize hK : ((row L v).takeWhile (· < n v)).length = K at hlb hle
  -- state after trimming
  have htrim : ∃ off1, resizeTrim (n v) v (off, adj, carry) =
      .ok (off1, (trimTo n L (v + 1)).flatten, carry + ((row L v).length - K)) ∧ off1.length = L.length + 1 ∧
      ∀ i, i ≤ L.length → off1[i]? = some (if i ≤ v + 1 then psum (trimTo n L (v + 1)) i else psum L i) := by
    have hp1 : psum (trimTo n L (v + 1)) (v + 1) = psum (trimTo n L v) v + K := by
      rw [psum_succ _ (by simpa using hv), trimTo_getElem, if_pos (by omega), ← row_of_lt hv, hK,
        psum_trimTo_succ_before n L (by omega) hv]
    have hoffs : ∀ (x : List Nat), x.length = L.length + 1 → (∀ i, i ≤ L.length → i ≠ v + 1 → x[i]? = off[i]?) →
        x[v + 1]? = some (psum (trimTo n L v) v + K) → ∀ i, i ≤ L.length →
        x[i]? = some (if i ≤ v + 1 then psum (trimTo n L (v + 1)) i else psum L i) := by
      intro x hx h1 h2 i hi
      by_cases hiv : i = v + 1
      · subst hiv; rw [h2, if_pos (by omega), hp1]
      · rw [h1 i hi hiv, hoff i hi]
        split
        · rename_i h3
          rw [psum_trimTo_succ_before n L (by omega) hv]
        · rfl
    unfold resizeTrim
    simp only [Graph.adjIter, r1, r2, Out.ok_bind, Out.pure_eq, hadj, hsl, hlb]
    by_cases hKl : K = (row L v).length
    · have hc : (psum (trimTo n L v) v + K != psum (trimTo n L v) (v + 1)) = false := by
        simp only [bne_eq_false_iff_eq]; omega
      have heq : trimTo n L (v + 1) = trimTo n L v := by
        rw [trimTo_succ n L hv]
        apply rows_ext (by simp)
        intro i
        rw [row_set hvt]
        split
        · rename_i hi; subst hi
          rw [hrow]
          exact (List.takeWhile_sublist _).eq_of_length (by rw [hK, hKl])
        · rfl
      simp only [hc, Bool.false_eq_true, if_false]
      refine ⟨off, ?_, hlen, ?_⟩
      · rw [heq, hKl]; simp
      · apply hoffs off hlen (fun _ _ _ => rfl)
        rw [hoff (v + 1) (by omega), if_pos (by omega)]
        congr 1; omega
    · have hc : (psum (trimTo n L v) v + K != psum (trimTo n L v) (v + 1)) = true := by
        simp only [bne_iff_ne, ne_eq]; omega
      simp only [hc, if_true]
      have hu : usub (psum (trimTo n L v) (v + 1)) (psum (trimTo n L v) (v + 1) - (psum (trimTo n L v) v + K)) =
          psum (trimTo n L v) v + K := by rw [usub_of_le (by omega)]; omega
      have w : ∀ x, wr off (v + 1) x = .ok (off.set (v + 1) x) := fun x => wr_ok (by omega)
      simp only [hu, w, Out.ok_bind]
      refine ⟨off.set (v + 1) (psum (trimTo n L v) v + K), ?_, by simpa using hlen, ?_⟩
      · have hcut := cut_flatten (trimTo n L v) hvt (k := K) (m := (row L v).length) (by omega)
          (by rw [← row_of_lt hvt, hrow])
        rw [← hps, ← row_of_lt hvt, hrow] at hcut
        have hcr : cut (row L v) K (row L v).length = (row L v).takeWhile (· < n v) := by
          unfold cut
          rw [List.drop_length, List.append_nil, ← hK, take_takeWhile]
        rw [hcut, hcr, ← trimTo_succ n L hv]
        congr 3; omega
      · apply hoffs _ (by simpa using hlen)
        · intro i _ hi
          rw [List.getElem?_set, if_neg (Ne.symm hi)]
        · rw [List.getElem?_set]; simp [hlen]; omega
  obtain ⟨off1, htr, hlen1, hoff1⟩ := htrim
  have hcarry' : carry + ((row L v).length - K) + psum (trimTo n L (v + 1)) (v + 1) = psum L (v + 1) := by
    rw [psum_succ _ (by simpa using hv), trimTo_getElem, if_pos (by omega), ← row_of_lt hv, hK,
      psum_trimTo_succ_before n L (by omega) hv]
    omega
  unfold resizeBody
  rw [htr, Out.ok_bind]
  unfold resizeCarry
  simp only [hlen1]
  by_cases hlast : v + 2 < L.length + 1
  · have ho2 := hoff1 (v + 2) (by omega)
    rw [if_neg (by omega)] at ho2
    have hafter := psum_trimTo_after n L (show v + 1 ≤ v + 2 by omega) (by omega)
    simp only [hlast, true_or, if_true, rd_of_some ho2, Out.ok_bind]
    rw [wr_ok (by omega), Out.ok_bind]
    refine ⟨_, rfl, rfl, hcarry', by simpa using hlen1, ?_⟩
    intro i hi
    simp only []
    rw [List.getElem?_set]
    have hmono := psum_mono L (show v + 1 ≤ v + 2 by omega)
    by_cases hi2 : v + 2 = i
    · subst hi2
      simp only [if_true, hlen1, hlast]
      congr 1
      rw [if_pos (by omega), usub_of_le (by omega)]
      omega
    · rw [if_neg hi2, hoff1 i hi]
      congr 1
      split <;> split <;> first | rfl | omega
  · have hns : strict = false := by
      cases strict
      · rfl
      · have := hst rfl; omega
    simp only [hlast, hns, Bool.false_eq_true, false_or, if_false, Out.pure_eq]
    refine ⟨_, rfl, rfl, hcarry', hlen1, ?_⟩
    intro i hi
    simp only []
    rw [hoff1 i hi]
    congr 1
    split <;> split <;> first | rfl | omega

theorem resize_setup {g : Graph} {L} (h : g.Rep L) {n : Nat} (hn : n ≤ L.length) :
    resizeList g.off (n + 1) 0 = offs (L.take n) ∧
    resizeList g.adj (psum L n) 0 = (L.take n).flatten := by
  constructor
  · rw [offs_eq_iff]
    rcases h.2 with ho | ⟨rfl, ho⟩
    · constructor
      · simp [resizeList, ho]; omega
      · intro i hi
        rw [List.length_take, Nat.min_eq_left hn] at hi
        simp only [resizeList, ho, offs_length]
        rw [List.getElem?_append_left (by simp; omega), List.getElem?_take, if_pos (by omega),
          offs_getElem? L (by omega)]
        unfold psum
        rw [List.take_take, Nat.min_eq_left hi]
    · have : n = 0 := by simpa using hn
      subst this
      refine ⟨by simp [resizeList, ho], ?_⟩
      intro i hi
      simp at hi; subst hi
      simp [resizeList, ho]
  · rw [h.1]
    unfold resizeList
    have : psum L n - L.flatten.length = 0 := Nat.sub_eq_zero_of_le (psum_le L n)
    rw [this]
    simp only [List.replicate_zero, List.append_nil]
    unfold psum
    conv => lhs; rw [← List.take_append_drop n L]
    rw [List.flatten_append]
    rw [List.take_append_drop, List.take_left]

/-- `resize` to at most the current size, ignoring the write past the end. -/
theorem Rep.resize_shrink {g : Graph} {L} (h : g.Rep L) (hs : ∀ i, (row L i).Pairwise (· < ·)) {n : Nat}
    (hn : n ≤ L.length) :
    ∃ g', g.resize false n = .ok g' ∧ g'.Rep ((L.take n).map fun r => r.filter (· < n)) := by
  obtain ⟨e1, e2⟩ := resize_setup h hn
  have hlen : (L.take n).length = n := by simp; omega
  have hrow : ∀ i, (row (L.take n) i).Pairwise (· < ·) := by
    intro i
    by_cases hi : i < n
    · rw [row_of_lt (by omega), List.getElem_take, ← row_of_lt (by omega)]; exact hs i
    · rw [row_of_ge (by omega)]; exact List.Pairwise.nil
  obtain ⟨s, hloop, hI⟩ := loop_inv (body := resizeBody false n) (ResizeInv (fun _ => n) (L.take n)) (n := n)
    (s := (offs (L.take n), (L.take n).flatten, 0))
    ⟨by simp [trimTo_zero], by simp, by simp, fun i hi => by rw [trimTo_zero]; simp [offs_getElem? _ hi]⟩
    (fun i s hi hI => resizeBody_ok hrow hI (by omega) false (by simp))
  obtain ⟨off, adj, carry⟩ := s
  have hfin : trimTo (fun _ => n) (L.take n) n = (L.take n).map fun r => r.filter (· < n) := by
    apply rows_ext (by simp)
    intro i
    rw [row_trimTo]
    by_cases hi : i < n
    · rw [if_pos hi, row_of_lt (L := List.map _ _) (by simp; omega), List.getElem_map, ← row_of_lt (by omega)]
      exact takeWhile_lt_eq_filter (hrow i) n
    · rw [if_neg hi, row_of_ge (by omega), row_of_ge (by simp; omega)]
  refine ⟨⟨adj, off⟩, ?_, by rw [← hfin]; exact hI.adj, .inl ?_⟩
  · unfold Graph.resize
    have hsv : (⟨resizeList g.adj (psum L n) 0, offs (L.take n)⟩ : Graph).sizeVertex = n := by
      rw [Rep.sizeVertex (L := L.take n) ⟨e2, .inl rfl⟩, hlen]
    have rb : rd (offs (L.take n)) ((offs (L.take n)).length - 1) = .ok (psum L n) := by
      apply rd_of_some
      rw [offs_length, Nat.add_sub_cancel, offs_getElem? _ (Nat.le_refl _), hlen]
      unfold psum; rw [List.take_take, Nat.min_self]
    rw [if_neg (by rw [h.sizeVertex]; omega)]
    simp only [e1, rb, Out.ok_bind, hsv, e2] at hsv ⊢
    simp only [hsv, hloop, Out.ok_bind, Out.pure_eq]
  · rw [offs_eq_iff]
    refine ⟨by simp [hI.len], ?_⟩
    intro i hi
    have hi' : i ≤ (L.take n).length := by simpa using hi
    have := hI.off i hi'
    simp only [] at this ⊢
    rw [this, if_pos (by omega), hfin]

/-- In strict mode each shrinking or same size `resize` to at least one vertex is undefined. -/
theorem Rep.resize_ub {g : Graph} {L} (h : g.Rep L) (hs : ∀ i, (row L i).Pairwise (· < ·)) {n : Nat}
    (hn : n ≤ L.length) (hpos : 0 < n) : g.resize true n = .ub := by
  obtain ⟨e1, e2⟩ := resize_setup h hn
  have hlen : (L.take n).length = n := by simp; omega
  have hrow : ∀ i, (row (L.take n) i).Pairwise (· < ·) := by
    intro i
    by_cases hi : i < n
    · rw [row_of_lt (by omega), List.getElem_take, ← row_of_lt (by omega)]; exact hs i
    · rw [row_of_ge (by omega)]; exact List.Pairwise.nil
  obtain ⟨s, hloop, hI⟩ := loop_inv (body := resizeBody true n) (ResizeInv (fun _ => n) (L.take n)) (n := n - 1)
    (s := (offs (L.take n), (L.take n).flatten, 0))
    ⟨by simp [trimTo_zero], by simp, by simp, fun i hi => by rw [trimTo_zero]; simp [offs_getElem? _ hi]⟩
    (fun i s hi hI => resizeBody_ok hrow hI (by omega) true (by omega))
  have hub : resizeBody true n (n - 1) s = .ub := by
    obtain ⟨s', h1, hI'⟩ := resizeBody_ok hrow hI (by omega) false (by simp)
    unfold resizeBody at h1 ⊢
    rw [Out.bind_eq_ok] at h1
    obtain ⟨t, ht, h2⟩ := h1
    rw [ht, Out.ok_bind]
    unfold resizeCarry at h2 ⊢
    have hlen' : t.1.length = n + 1 := by
      have hl := hI'.len
      by_cases hc : n - 1 + 2 < t.1.length
      · simp only [hc, true_or, if_true] at h2
        rw [Out.bind_eq_ok] at h2
        obtain ⟨o, _, h2⟩ := h2
        rw [wr_ok hc, Out.ok_bind, Out.pure_eq, Out.ok.injEq] at h2
        rw [← h2] at hl
        simp at hl; omega
      · simp only [hc, Bool.false_eq_true, false_or, if_false, Out.pure_eq, Out.ok.injEq] at h2
        rw [h2, hl, hlen]
    simp only [or_true, if_true]
    rw [rd_ub (by omega), Out.ub_bind]
  unfold Graph.resize
  have hsv : (⟨resizeList g.adj (psum L n) 0, offs (L.take n)⟩ : Graph).sizeVertex = n := by
    rw [Rep.sizeVertex (L := L.take n) ⟨e2, .inl rfl⟩, hlen]
  have rb : rd (offs (L.take n)) ((offs (L.take n)).length - 1) = .ok (psum L n) := by
    apply rd_of_some
    rw [offs_length, Nat.add_sub_cancel, offs_getElem? _ (Nat.le_refl _), hlen]
    unfold psum; rw [List.take_take, Nat.min_self]
  rw [if_neg (by rw [h.sizeVertex]; omega)]
  simp only [e1, rb, Out.ok_bind, hsv, e2] at hsv ⊢
  have hl := loop_fail (n := n) (by omega) hloop hub
  simp only [hsv, hl, Out.ub_bind]

theorem row_shrink {L : List (List Nat)} {n : Nat} (i : Nat) :
    row ((L.take n).map fun r => r.filter (· < n)) i = if i < n then (row L i).filter (· < n) else [] := by
  unfold row
  rw [List.getElem?_map, List.getElem?_take]
  split
  · cases L[i]? <;> simp
  · simp

theorem shrink_good {d : Bool} {L : List (List Nat)} (hg : Good d L) {n : Nat} (hn : n ≤ L.length) :
    Good d ((L.take n).map fun r => r.filter (· < n)) := by
  constructor
  · intro i; rw [row_shrink]; split
    · exact (hg.sorted i).filter _
    · exact List.Pairwise.nil
  · intro i j hj
    rw [row_shrink] at hj
    split at hj
    · have := (List.mem_filter.mp hj).2
      simp at this ⊢; omega
    · simp at hj
  · intro i hi
    rw [row_shrink] at hi
    split at hi
    · exact hg.loopless i (List.mem_filter.mp hi).1
    · simp at hi
  · intro hd i j hj
    rw [row_shrink] at hj ⊢
    split at hj
    · rename_i hin
      obtain ⟨h1, h2⟩ := List.mem_filter.mp hj
      simp at h2
      rw [if_pos h2]
      exact List.mem_filter.mpr ⟨hg.symm hd i j h1, by simpa using hin⟩
    · simp at hj

end Graph
end Disa
