import Verif.Graph.Rows
import Mathlib.Data.List.Nodup
import Mathlib.Tactic.Ring

/-! # Row level effect of `reorder` with a permutation -/

namespace Disa

/-- The new index of vertex `x`. -/
def pat (perm : List Nat) (x : Nat) : Nat := (perm[x]?).getD 0

/-- `perm` lists every index below `n` once. -/
def IsPerm (perm : List Nat) (n : Nat) : Prop := perm.Perm (List.range n)

theorem IsPerm.length {perm : List Nat} {n : Nat} (h : IsPerm perm n) : perm.length = n := by
  have := List.Perm.length_eq h; simpa using this

theorem IsPerm.nodup {perm : List Nat} {n : Nat} (h : IsPerm perm n) : perm.Nodup :=
  (List.Perm.nodup_iff h).mpr List.nodup_range

theorem IsPerm.mem {perm : List Nat} {n x : Nat} (h : IsPerm perm n) : x ∈ perm ↔ x < n := by
  rw [List.Perm.mem_iff h]; simp

theorem pat_eq {perm : List Nat} {x : Nat} (h : x < perm.length) : pat perm x = perm[x] := by simp [pat, h]

theorem IsPerm.rd {perm : List Nat} {n x : Nat} (h : IsPerm perm n) (hx : x < n) : rd perm x = .ok (pat perm x) := by
  have hx' : x < perm.length := by rw [h.length]; exact hx
  rw [rd_ok hx', pat_eq hx']

theorem IsPerm.pat_lt {perm : List Nat} {n x : Nat} (h : IsPerm perm n) (hx : x < n) : pat perm x < n := by
  have hx' : x < perm.length := by rw [h.length]; exact hx
  rw [pat_eq hx', ← h.mem]; exact List.getElem_mem hx'

theorem IsPerm.pat_inj {perm : List Nat} {n x y : Nat} (h : IsPerm perm n) (hx : x < n) (hy : y < n)
    (he : pat perm x = pat perm y) : x = y := by
  have hx' : x < perm.length := by rw [h.length]; exact hx
  have hy' : y < perm.length := by rw [h.length]; exact hy
  rw [pat_eq hx', pat_eq hy'] at he
  have := h.nodup.idxOf_getElem x hx'
  rw [he, h.nodup.idxOf_getElem y hy'] at this
  exact this.symm

theorem IsPerm.idx_lt {perm : List Nat} {n j : Nat} (h : IsPerm perm n) (hj : j < n) : perm.idxOf j < n := by
  have := List.idxOf_lt_length_of_mem (h.mem.mpr hj)
  rwa [h.length] at this

theorem IsPerm.pat_idx {perm : List Nat} {n j : Nat} (h : IsPerm perm n) (hj : j < n) : pat perm (perm.idxOf j) = j := by
  have := List.idxOf_lt_length_of_mem (h.mem.mpr hj)
  rw [pat_eq this, List.getElem_idxOf]

theorem IsPerm.idx_pat {perm : List Nat} {n x : Nat} (h : IsPerm perm n) (hx : x < n) : perm.idxOf (pat perm x) = x := by
  have hx' : x < perm.length := by rw [h.length]; exact hx
  rw [pat_eq hx', h.nodup.idxOf_getElem]

theorem sum_range (n : Nat) : 2 * (List.range n).sum = (n - 1) * n := by
  induction n with
  | zero => rfl
  | succ n ih =>
    rw [List.range_succ, List.sum_append, Nat.mul_add, ih]
    cases n with
    | zero => simp
    | succ n => simp; ring

theorem IsPerm.sum {perm : List Nat} {n : Nat} (h : IsPerm perm n) : 2 * perm.sum = (n - 1) * n := by
  have : perm.sum = (List.range n).sum := List.Perm.sum_nat h
  rw [this, sum_range]

namespace Graph

/-- Relabelled and sorted row of old vertex `i`. -/
def relRow (perm : List Nat) (L : List (List Nat)) (i : Nat) : List Nat :=
  ((row L i).map (pat perm)).insertionSort (· ≤ ·)

/-- Rows after `reorder`. -/
def reorderRows (perm : List Nat) (L : List (List Nat)) : List (List Nat) :=
  (List.range L.length).map fun j => relRow perm L (perm.idxOf j)

theorem relRow_length (perm : List Nat) (L : List (List Nat)) (i : Nat) :
    (relRow perm L i).length = (row L i).length := by simp [relRow, List.length_insertionSort]

@[simp] theorem reorderRows_length (perm : List Nat) (L : List (List Nat)) :
    (reorderRows perm L).length = L.length := by simp [reorderRows]

theorem row_reorderRows {perm : List Nat} {L : List (List Nat)} (hp : IsPerm perm L.length) {i : Nat}
    (hi : i < L.length) : row (reorderRows perm L) (pat perm i) = relRow perm L i := by
  rw [row_of_lt (by simpa using hp.pat_lt hi)]
  simp [reorderRows, hp.idx_pat hi]

theorem reorderOff_ok {g : Graph} {L} (h : g.Rep L) {perm : List Nat} (hp : IsPerm perm L.length) (hn : L ≠ []) :
    g.reorderOff perm = .ok (offs (reorderRows perm L)) := by
  have ho := h.off hn
  have hlen : 0 < L.length := List.length_pos_iff.mpr hn
  have hemp : g.empty = false := by rw [h.empty]; simp; exact hn
  -- counting loop
  obtain ⟨off1, hl1, h1len, h1z, h1⟩ := loop_inv (body := g.reorderCount perm) (n := L.length)
    (s := (List.replicate g.off.length 0).set 0 0)
    (fun k (off : List Nat) => off.length = L.length + 1 ∧ off[0]? = some 0 ∧
      ∀ i, i < k → off[pat perm i + 1]? = some (row L i).length)
    (by refine ⟨by simp [ho], ?_, by intro i hi; omega⟩
        simp [ho])
    (by
      rintro k off hk ⟨hl, hz, hi⟩
      have r1 := hp.rd hk
      have r2 : rd g.off (k + 1) = .ok (psum L (k + 1)) := rd_of_some (by rw [ho, offs_getElem? L (by omega)])
      have r3 : rd g.off k = .ok (psum L k) := rd_of_some (by rw [ho, offs_getElem? L (by omega)])
      have hps := psum_succ L hk
      rw [← row_of_lt hk] at hps
      have hpl := hp.pat_lt hk
      refine ⟨off.set (pat perm k + 1) (row L k).length, ?_, by simpa using hl, ?_, ?_⟩
      · unfold reorderCount
        simp only [r1, r2, r3, Out.ok_bind]
        rw [usub_of_le (by omega), wr_ok (by omega)]
        congr 2; omega
      · rw [List.getElem?_set, if_neg (by omega)]; exact hz
      · intro i hik
        rw [List.getElem?_set]
        by_cases hik' : i = k
        · subst hik'; simp; omega
        · have : pat perm k ≠ pat perm i := fun e => hik' (hp.pat_inj hk (by omega) e).symm
          rw [if_neg (by omega)]
          exact hi i (by omega))
  -- summing loop
  obtain ⟨off2, hl2, h2len, h2a, h2b⟩ := loop_inv (body := reorderSum) (n := L.length) (s := off1)
    (fun k (off : List Nat) => off.length = L.length + 1 ∧
      (∀ j, j ≤ k → off[j]? = some (psum (reorderRows perm L) j)) ∧
      (∀ j, k < j → j ≤ L.length → off[j]? = some (row (reorderRows perm L) (j - 1)).length))
    (by
      refine ⟨h1len, ?_, ?_⟩
      · intro j hj
        have : j = 0 := by omega
        subst this; simpa using h1z
      · intro j hj hjl
        have hji := hp.idx_lt (show j - 1 < L.length by omega)
        have := h1 _ hji
        rw [hp.pat_idx (by omega)] at this
        rw [show j - 1 + 1 = j by omega] at this
        rw [this]
        have hr := row_reorderRows hp hji
        rw [hp.pat_idx (by omega)] at hr
        rw [hr, relRow_length])
    (by
      rintro k off hk ⟨hl, ha, hb⟩
      have r1 : rd off (k + 1) = .ok _ := rd_of_some (hb (k + 1) (by omega) (by omega))
      have r2 : rd off k = .ok _ := rd_of_some (ha k (by omega))
      have hps := psum_succ (reorderRows perm L) (i := k) (by simpa using hk)
      rw [← row_of_lt] at hps
      refine ⟨off.set (k + 1) (psum (reorderRows perm L) (k + 1)), ?_, by simpa using hl, ?_, ?_⟩
      · unfold reorderSum
        simp only [r1, r2, Out.ok_bind]
        rw [wr_ok (by omega)]
        congr 2
        simp only [Nat.add_sub_cancel]; omega
      · intro j hj
        rw [List.getElem?_set]
        by_cases hjk : k + 1 = j
        · subst hjk; simp; omega
        · rw [if_neg hjk]; exact ha j (by omega)
      · intro j hj hjl
        rw [List.getElem?_set, if_neg (by omega)]; exact hb j (by omega) hjl)
  have : off2 = offs (reorderRows perm L) := by
    rw [offs_eq_iff]
    exact ⟨by simpa using h2len, fun i hi => h2a i (by simpa using hi)⟩
  unfold reorderOff
  have w : wr (List.replicate g.off.length 0) 0 0 = .ok ((List.replicate g.off.length 0).set 0 0) :=
    wr_ok (by simp [ho])
  simp only [hemp, Bool.not_false, if_true, w, h.sizeVertex, hl1, hl2, Out.ok_bind, this]

/-- Partially filled rows after the first `k` old vertices were copied. -/
def fillRows (perm : List Nat) (L : List (List Nat)) (k : Nat) : List (List Nat) :=
  (List.range L.length).map fun j =>
    if perm.idxOf j < k then relRow perm L (perm.idxOf j) else List.replicate (row L (perm.idxOf j)).length 0

theorem fillRows_lengths (perm : List Nat) (L : List (List Nat)) (k : Nat) :
    (fillRows perm L k).map List.length = (reorderRows perm L).map List.length := by
  unfold fillRows reorderRows
  rw [List.map_map, List.map_map]
  apply List.map_congr_left
  intro j _
  simp only [Function.comp]
  split
  · rfl
  · simp [relRow_length]

theorem reorderRows_total {perm : List Nat} {L : List (List Nat)} (hp : IsPerm perm L.length) :
    (reorderRows perm L).flatten.length = L.flatten.length := by
  rw [List.length_flatten, List.length_flatten]
  have h1 : (reorderRows perm L).map List.length = (List.range L.length).map (fun j => (row L (perm.idxOf j)).length) := by
    unfold reorderRows; rw [List.map_map]
    apply List.map_congr_left; intro j _; simp [relRow_length]
  have h2 : L.map List.length = (List.range L.length).map (fun j => (row L j).length) := by
    apply List.ext_getElem (by simp)
    intro i h1 h2
    simp at h1
    simp [row_of_lt h1]
  rw [h1, h2]
  have h3 : (List.range L.length).map (fun j => (row L (perm.idxOf j)).length) =
      ((List.range L.length).map perm.idxOf).map (fun j => (row L j).length) := by rw [List.map_map]; rfl
  rw [h3]
  apply List.Perm.sum_nat
  apply List.Perm.map
  have h4 : (List.range L.length).Perm perm := List.Perm.symm hp
  have h5 := h4.map perm.idxOf
  refine h5.trans ?_
  have : perm.map perm.idxOf = List.range L.length := by
    apply List.ext_getElem (by simp [hp.length])
    intro i h1 h2
    simp at h1
    simp [hp.nodup.idxOf_getElem i h1]
  rw [this]

theorem fillRows_zero {perm : List Nat} {L : List (List Nat)} (hp : IsPerm perm L.length) :
    (fillRows perm L 0).flatten = List.replicate L.flatten.length 0 := by
  rw [List.eq_replicate_iff]
  constructor
  · rw [← reorderRows_total hp, List.length_flatten, List.length_flatten, fillRows_lengths]
  · intro x hx
    simp only [fillRows, List.mem_flatten, List.mem_map] at hx
    obtain ⟨r, ⟨j, _, rfl⟩, hx⟩ := hx
    simp at hx
    exact hx.2

theorem fillRows_succ {perm : List Nat} {L : List (List Nat)} (hp : IsPerm perm L.length) {k : Nat}
    (hk : k < L.length) : fillRows perm L (k + 1) = (fillRows perm L k).set (pat perm k) (relRow perm L k) := by
  apply List.ext_getElem (by simp [fillRows])
  intro j h1 h2
  have hj : j < L.length := by simpa [fillRows] using h1
  rw [List.getElem_set]
  simp only [fillRows, List.getElem_map, List.getElem_range]
  by_cases hjk : pat perm k = j
  · subst hjk
    rw [if_pos rfl, hp.idx_pat hk, if_pos (by omega)]
  · rw [if_neg hjk]
    have : perm.idxOf j ≠ k := fun e => hjk (by rw [← e]; exact hp.pat_idx hj)
    by_cases hlt : perm.idxOf j < k
    · rw [if_pos (by omega), if_pos hlt]
    · rw [if_neg (by omega), if_neg hlt]

theorem fillRows_all {perm : List Nat} {L : List (List Nat)} (hp : IsPerm perm L.length) :
    fillRows perm L L.length = reorderRows perm L := by
  unfold fillRows reorderRows
  apply List.map_congr_left
  intro j hj
  rw [if_pos (hp.idx_lt (by simpa using hj))]

theorem reorderFill_ok {g : Graph} {L} (h : g.Rep L) (hr : ∀ i, ∀ j ∈ row L i, j < L.length) {perm : List Nat}
    (hp : IsPerm perm L.length) {k : Nat} (hk : k < L.length) :
    g.reorderFill perm (offs (reorderRows perm L)) k (fillRows perm L k).flatten =
      .ok (fillRows perm L (k + 1)).flatten := by
  have hlen : (fillRows perm L k).length = L.length := by simp [fillRows]
  have hpk := hp.pat_lt hk
  have hpf : pat perm k < (fillRows perm L k).length := by omega
  have hps : ∀ i, psum (reorderRows perm L) i = psum (fillRows perm L k) i := fun i =>
    psum_congr (fillRows_lengths perm L k).symm i
  have hrl : (fillRows perm L k)[pat perm k].length = (row L k).length := by
    simp only [fillRows, List.getElem_map, List.getElem_range, hp.idx_pat hk]
    simp
  have hm : mapOut (rd perm) (row L k) = .ok ((row L k).map (pat perm)) :=
    mapOut_ok fun x hx => hp.rd (hr k x hx)
  have r1 : rd (offs (reorderRows perm L)) (pat perm k) = .ok (psum (fillRows perm L k) (pat perm k)) :=
    rd_of_some (by rw [offs_getElem? _ (by simp; omega), hps])
  have r2 : rd (offs (reorderRows perm L)) (pat perm k + 1) = .ok (psum (fillRows perm L k) (pat perm k + 1)) :=
    rd_of_some (by rw [offs_getElem? _ (by simp; omega), hps])
  have o1 := overwrite_flatten (fillRows perm L k) hpf (r := (row L k).map (pat perm)) (by rw [hrl]; simp)
  -- after the copy
  have hpf2 : pat perm k < ((fillRows perm L k).set (pat perm k) ((row L k).map (pat perm))).length := by simpa using hpf
  have hsl := slice_row _ hpf2
  have e1 : psum ((fillRows perm L k).set (pat perm k) ((row L k).map (pat perm))) (pat perm k) =
      psum (fillRows perm L k) (pat perm k) := by rw [psum_set _ hpf, if_pos (by omega)]
  have e2 : psum ((fillRows perm L k).set (pat perm k) ((row L k).map (pat perm))) (pat perm k + 1) =
      psum (fillRows perm L k) (pat perm k + 1) := by
    rw [psum_set _ hpf, if_neg (by omega), hrl, List.length_map]
    have := psum_succ _ hpf
    omega
  rw [e1, e2] at hsl
  have hg : ((fillRows perm L k).set (pat perm k) ((row L k).map (pat perm)))[pat perm k] = (row L k).map (pat perm) := by
    simp
  rw [hg] at hsl
  have o2 := overwrite_flatten _ hpf2 (r := relRow perm L k) (by rw [hg, relRow_length]; simp)
  rw [e1, List.set_set, ← fillRows_succ hp hk] at o2
  have hs := slice_row L hk
  rw [← row_of_lt hk] at hs
  unfold reorderFill
  simp only [hp.rd hk, h.adjIter hk, h.1, hs, hm, r1, o1, Out.ok_bind]
  simp only [Graph.adjIter, r1, r2, Out.ok_bind, Out.pure_eq, hsl]
  exact o2

/-- Effect of `reorder` with a permutation. -/
theorem Rep.reorder {g : Graph} {L} (h : g.Rep L) (hr : ∀ i, ∀ j ∈ row L i, j < L.length) {perm : List Nat}
    (hp : IsPerm perm L.length) :
    ∃ g', g.reorder perm = .ok (g', g) ∧ g'.Rep (reorderRows perm L) := by
  have a1 : (perm.length == L.length) = true := by simp [hp.length]
  have a2 : (2 * perm.sum == (L.length - 1) * L.length) = true := by simp [hp.sum]
  by_cases hn : L = []
  · subst hn
    refine ⟨⟨[], List.replicate g.off.length 0⟩, ?_, ?_⟩
    · unfold Graph.reorder
      have hemp : g.empty = true := by rw [h.empty]; simp
      have hadj : g.adj = [] := by rw [h.1]; rfl
      simp only [h.sizeVertex, a1, a2, assert_true, Out.ok_bind, Graph.reorderOff, hemp, hadj]
      simp [loop]
    · refine ⟨by simp [reorderRows], ?_⟩
      rcases h.2 with ho | ⟨_, ho⟩
      · left; simp [ho, reorderRows, offs]
      · right; simp [ho, reorderRows]
  · obtain ⟨adj, hloop, hadj⟩ := loop_inv (body := g.reorderFill perm (offs (reorderRows perm L))) (n := L.length)
      (s := List.replicate g.adj.length 0) (fun k adj => adj = (fillRows perm L k).flatten)
      (by rw [fillRows_zero hp, h.1])
      (by rintro k adj hk rfl; exact ⟨_, reorderFill_ok h hr hp hk, rfl⟩)
    refine ⟨⟨adj, offs (reorderRows perm L)⟩, ?_, by rw [hadj, fillRows_all hp], .inl rfl⟩
    unfold Graph.reorder
    simp only [h.sizeVertex, a1, a2, assert_true, Out.ok_bind, reorderOff_ok h hp hn, hloop, Out.pure_eq]

theorem mem_relRow {perm : List Nat} {L : List (List Nat)} {i x : Nat} :
    x ∈ relRow perm L i ↔ ∃ j ∈ row L i, pat perm j = x := by
  unfold relRow
  rw [(List.perm_insertionSort _ _).mem_iff, List.mem_map]

theorem relRow_sorted {perm : List Nat} {L : List (List Nat)} (hp : IsPerm perm L.length)
    (hr : ∀ i, ∀ j ∈ row L i, j < L.length) {i : Nat} (hs : (row L i).Pairwise (· < ·)) :
    (relRow perm L i).Pairwise (· < ·) := by
  have h1 : (relRow perm L i).Pairwise (· ≤ ·) := List.pairwise_insertionSort _ _
  have hnd : (relRow perm L i).Nodup := by
    unfold relRow
    rw [(List.perm_insertionSort _ _).nodup_iff]
    apply List.Nodup.map_on
    · intro x hx y hy he
      exact hp.pat_inj (hr i x hx) (hr i y hy) he
    · exact hs.imp (fun h => Nat.ne_of_lt h)
  have := h1.and hnd
  refine this.imp ?_
  rintro a b ⟨h1, h2⟩
  omega

theorem mem_reorderRows {perm : List Nat} {L : List (List Nat)} (hp : IsPerm perm L.length)
    (hr : ∀ i, ∀ j ∈ row L i, j < L.length) {a b : Nat} (ha : a < L.length) (hb : b < L.length) :
    pat perm b ∈ row (reorderRows perm L) (pat perm a) ↔ b ∈ row L a := by
  rw [row_reorderRows hp ha, mem_relRow]
  constructor
  · rintro ⟨j, hj, he⟩
    exact hp.pat_inj (hr a j hj) hb he ▸ hj
  · intro h; exact ⟨b, h, rfl⟩

theorem reorderRows_good {d : Bool} {perm : List Nat} {L : List (List Nat)} (hg : Good d L)
    (hp : IsPerm perm L.length) : Good d (reorderRows perm L) := by
  have key : ∀ i, i < L.length → ∃ v, v < L.length ∧ pat perm v = i := fun i hi =>
    ⟨_, hp.idx_lt hi, hp.pat_idx hi⟩
  constructor
  · intro i
    by_cases hi : i < L.length
    · obtain ⟨v, hv, rfl⟩ := key i hi
      rw [row_reorderRows hp hv]
      exact relRow_sorted hp hg.range (hg.sorted v)
    · rw [row_of_ge (by simp; omega)]; exact List.Pairwise.nil
  · intro i j hj
    obtain ⟨v, hv, rfl⟩ := key i (by simpa using lt_of_mem_row hj)
    rw [row_reorderRows hp hv, mem_relRow] at hj
    obtain ⟨x, hx, rfl⟩ := hj
    simpa using hp.pat_lt (hg.range v x hx)
  · intro i hi
    obtain ⟨v, hv, rfl⟩ := key i (by simpa using lt_of_mem_row hi)
    rw [mem_reorderRows hp hg.range hv hv] at hi
    exact hg.loopless v hi
  · intro hd i j hj
    obtain ⟨v, hv, rfl⟩ := key i (by simpa using lt_of_mem_row hj)
    have hj' := hj
    rw [row_reorderRows hp hv, mem_relRow] at hj
    obtain ⟨x, hx, rfl⟩ := hj
    rw [mem_reorderRows hp hg.range (hg.range v x hx) hv]
    exact hg.symm hd v x hx

end Graph
end Disa
