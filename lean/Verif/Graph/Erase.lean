import Verif.Graph.Rows
import Mathlib.Data.Nat.Find
import Mathlib.Data.List.Nodup

/-! # Row level effect of `erase_if` -/

namespace Disa

/-- Number of surviving vertices below `v`. -/
def rank (del : Nat → Bool) (v : Nat) : Nat := (List.range v).countP (fun i => !del i)

theorem rank_succ (del : Nat → Bool) (v : Nat) : rank del (v + 1) = rank del v + if del v then 0 else 1 := by
  unfold rank
  rw [List.range_succ, List.countP_append]
  cases h : del v <;> simp [h]

theorem rank_mono (del : Nat → Bool) {u v : Nat} (h : u ≤ v) : rank del u ≤ rank del v := by
  induction v with
  | zero => have : u = 0 := by omega
            subst this; exact Nat.le_refl _
  | succ v ih =>
    by_cases hu : u = v + 1
    · subst hu; exact Nat.le_refl _
    · rw [rank_succ]; have := ih (by omega); omega

theorem rank_lt (del : Nat → Bool) {u v : Nat} (h : u < v) (hu : del u = false) : rank del u < rank del v := by
  have h1 := rank_mono del (show u + 1 ≤ v by omega)
  rw [rank_succ, hu] at h1
  simp at h1; omega

theorem rank_le (del : Nat → Bool) (v : Nat) : rank del v ≤ v := by
  unfold rank
  exact Nat.le_trans List.countP_le_length (by simp)

/-- The survivors among the first `n` vertices. -/
def kept (del : Nat → Bool) (n : Nat) : List Nat := (List.range n).filter (fun i => !del i)

theorem kept_length (del : Nat → Bool) (n : Nat) : (kept del n).length = rank del n := by
  unfold kept rank; rw [List.countP_eq_length_filter]

theorem kept_succ (del : Nat → Bool) (n : Nat) : kept del (n + 1) = kept del n ++ if del n then [] else [n] := by
  unfold kept
  rw [List.range_succ, List.filter_append]
  cases h : del n <;> simp [h]

theorem mem_kept {del : Nat → Bool} {n v : Nat} : v ∈ kept del n ↔ v < n ∧ del v = false := by
  simp [kept]

theorem kept_getElem? (del : Nat → Bool) {n v : Nat} (h : v < n) (hv : del v = false) :
    (kept del n)[rank del v]? = some v := by
  induction n with
  | zero => omega
  | succ n ih =>
    rw [kept_succ, List.getElem?_append]
    by_cases hvn : v = n
    · subst hvn
      rw [kept_length, if_neg (by omega)]
      simp [hv]
    · rw [if_pos (by rw [kept_length]; exact rank_lt del (by omega) hv)]
      exact ih (by omega)

theorem map_rank_kept (del : Nat → Bool) (f : Nat → α) (n : Nat) :
    (kept del n).map (fun i => f (rank del i)) = (List.range (rank del n)).map f := by
  induction n with
  | zero => simp [kept, rank]
  | succ n ih =>
    rw [kept_succ, rank_succ, List.map_append, ih]
    cases h : del n <;> simp [List.range_succ]

theorem kept_sorted (del : Nat → Bool) (n : Nat) : (kept del n).Pairwise (· < ·) :=
  List.Pairwise.filter _ List.pairwise_lt_range

namespace Graph

/-- Entries of row `i` that survive, with their old labels. -/
def keepRow (del : Nat → Bool) (L : List (List Nat)) (i : Nat) : List Nat :=
  if del i then [] else (row L i).filter (fun x => !del x)

/-- Deletion flags of row `i`. -/
def flagRow (del : Nat → Bool) (L : List (List Nat)) (i : Nat) : List Bool :=
  if del i then (row L i).map (fun _ => true) else (row L i).map del

/-- Rows after `erase_if`. -/
def eraseRows (del : Nat → Bool) (L : List (List Nat)) : List (List Nat) :=
  (kept del L.length).map fun v => ((row L v).filter (fun x => !del x)).map (rank del)

/-- Surviving rows, old labels. -/
def keptRows (del : Nat → Bool) (L : List (List Nat)) : List (List Nat) := (kept del L.length).map (keepRow del L)

/-- Number of surviving entries in rows before `i`. -/
def ksum (del : Nat → Bool) (L : List (List Nat)) (i : Nat) : Nat := ((List.range i).map (keepRow del L)).flatten.length

theorem ksum_succ (del : Nat → Bool) (L : List (List Nat)) (i : Nat) :
    ksum del L (i + 1) = ksum del L i + (keepRow del L i).length := by
  unfold ksum; rw [flatten_map_range_succ, List.length_append]

theorem psum_range (L : List (List Nat)) {i : Nat} (h : i ≤ L.length) :
    (L.take i).flatten = ((List.range i).map (row L)).flatten := by
  induction i with
  | zero => simp
  | succ i ih =>
    rw [flatten_map_range_succ, ← ih (by omega), List.take_succ_eq_append_getElem (by omega), List.flatten_append,
      row_of_lt (by omega)]
    simp

theorem keepRow_le (del : Nat → Bool) (L : List (List Nat)) (i : Nat) :
    (keepRow del L i).length ≤ (row L i).length := by
  unfold keepRow; split
  · simp
  · exact List.length_filter_le ..

theorem ksum_le (del : Nat → Bool) (L : List (List Nat)) {i : Nat} (h : i ≤ L.length) : ksum del L i ≤ psum L i := by
  induction i with
  | zero => simp [ksum]
  | succ i ih =>
    rw [ksum_succ, psum_succ L (by omega), ← row_of_lt (by omega)]
    have := ih (by omega)
    have := keepRow_le del L i
    omega

theorem psum_keptRows (del : Nat → Bool) (L : List (List Nat)) {i : Nat} (h : i ≤ L.length) :
    psum (keptRows del L) (rank del i) = ksum del L i := by
  induction i with
  | zero => simp [rank, ksum]
  | succ i ih =>
    have ih := ih (by omega)
    rw [rank_succ, ksum_succ]
    cases hd : del i with
    | true => simp [ih, keepRow, hd]
    | false =>
      have hlt : rank del i < (keptRows del L).length := by
        simp only [keptRows, List.length_map, kept_length]; exact rank_lt del (by omega) hd
      simp only [Bool.false_eq_true, if_false]
      rw [psum_succ _ hlt, ih]
      congr 2
      have := kept_getElem? del (show i < L.length by omega) hd
      rw [List.getElem?_eq_some_iff] at this
      obtain ⟨_, h2⟩ := this
      simp [keptRows, h2]

theorem keptRows_flatten (del : Nat → Bool) (L : List (List Nat)) (n : Nat) :
    ((kept del n).map (keepRow del L)).flatten = ((List.range n).map (keepRow del L)).flatten := by
  induction n with
  | zero => simp [kept]
  | succ n ih =>
    rw [flatten_map_range_succ, kept_succ, List.map_append, List.flatten_append, ih]
    cases hd : del n <;> simp [keepRow, hd]

theorem eraseRows_eq (del : Nat → Bool) (L : List (List Nat)) :
    eraseRows del L = (keptRows del L).map (List.map (rank del)) := by
  unfold eraseRows keptRows
  rw [List.map_map]
  apply List.map_congr_left
  intro v hv
  have := (mem_kept.mp hv).2
  simp [keepRow, this]

theorem offs_keptRows (del : Nat → Bool) (L : List (List Nat)) :
    offs (keptRows del L) = (kept del L.length).map (ksum del L) ++ [ksum del L L.length] := by
  have hlen : (keptRows del L).length = rank del L.length := by simp [keptRows, kept_length]
  unfold offs
  rw [hlen, List.range_succ, List.map_append, ← map_rank_kept]
  congr 1
  · apply List.map_congr_left
    intro v hv
    exact psum_keptRows del L (by have := (mem_kept.mp hv).1; omega)
  · simp [psum_keptRows del L (Nat.le_refl _)]

/-- Invariant of the first loop. -/
structure EraseInv (del : Nat → Bool) (L : List (List Nat)) (v : Nat) (s : EraseState) : Prop where
  off_len : s.off.length = L.length + 1
  off : ∀ i, i ≤ L.length → s.off[i]? = some (if i < v then ksum del L i else psum L i)
  adjDel : s.adjDel = ((List.range v).map (flagRow del L)).flatten ++
    List.replicate (L.flatten.length - psum L v) false
  idx_len : s.newIdx.length = L.flatten.length
  idx : ∀ i, i < v → del i = false → s.newIdx[i]? = some (rank del i)
  removed : s.removed = psum L v - ksum del L v
  iv : s.iv = rank del v

theorem flagRow_length (del : Nat → Bool) (L : List (List Nat)) (i : Nat) :
    (flagRow del L i).length = (row L i).length := by
  unfold flagRow; split <;> simp

theorem flags_length (del : Nat → Bool) (L : List (List Nat)) {v : Nat} (h : v ≤ L.length) :
    ((List.range v).map (flagRow del L)).flatten.length = psum L v := by
  induction v with
  | zero => simp
  | succ v ih =>
    rw [flatten_map_range_succ, List.length_append, ih (by omega), flagRow_length, psum_succ L (by omega),
      row_of_lt (by omega)]

theorem overwrite_flags {A : List Bool} {r : List Bool} {p m : Nat} (hA : A.length = p) (hr : r.length ≤ m) :
    overwrite (A ++ List.replicate m false) p r = .ok (A ++ r ++ List.replicate (m - r.length) false) := by
  unfold overwrite
  rw [if_pos (by simp; omega)]
  subst hA
  simp [List.drop_append, List.drop_replicate]

theorem eraseBody_ok {del : Nat → Bool} {L : List (List Nat)} {v : Nat} {s : EraseState}
    (hI : EraseInv del L v s) (hv : v < L.length) (hsafe : del v = false → v < L.flatten.length) :
    ∃ s', eraseBody L.flatten del v s = .ok s' ∧ EraseInv del L (v + 1) s' := by
  have r1 : rd s.off v = .ok (psum L v) := rd_of_some (by rw [hI.off v (by omega)]; simp)
  have r2 : rd s.off (v + 1) = .ok (psum L (v + 1)) :=
    rd_of_some (by rw [hI.off (v + 1) (by omega), if_neg (by omega)])
  have hs := slice_row L hv
  have hps := psum_succ L hv
  have hpl := psum_le L (v + 1)
  have hk := ksum_le del L (show v ≤ L.length by omega)
  have hkr := keepRow_le del L v
  have hks := ksum_succ del L v
  have hu : usub (psum L v) s.removed = ksum del L v := by
    rw [hI.removed, usub_of_le (by omega)]; omega
  have w1 : wr s.off v (ksum del L v) = .ok (s.off.set v (ksum del L v)) := wr_ok (by rw [hI.off_len]; omega)
  have hoffset : ∀ i, i ≤ L.length →
      (s.off.set v (ksum del L v))[i]? = some (if i < v + 1 then ksum del L i else psum L i) := by
    intro i hi
    rw [List.getElem?_set]
    by_cases h : v = i
    · subst h; simp [hI.off_len]; omega
    · rw [if_neg h, hI.off i hi]
      congr 1
      split <;> split <;> first | rfl | omega
  rw [← row_of_lt hv] at hs hps
  have hov := overwrite_flags (A := ((List.range v).map (flagRow del L)).flatten) (p := psum L v)
    (m := L.flatten.length - psum L v) (flags_length del L (by omega)) (r := flagRow del L v)
    (by rw [flagRow_length]; omega)
  rw [← hI.adjDel, flagRow_length, ← flatten_map_range_succ] at hov
  have hm : L.flatten.length - psum L v - (row L v).length = L.flatten.length - psum L (v + 1) := by omega
  rw [hm] at hov
  unfold eraseBody
  simp only [Graph.adjIter, r1, r2, Out.ok_bind, Out.pure_eq, hs, hu, w1]
  cases hd : del v with
  | true =>
    have hfl : flagRow del L v = (row L v).map (fun _ => true) := by simp [flagRow, hd]
    rw [hfl] at hov
    simp only [Bool.not_true, Bool.false_eq_true, if_false, hov, Out.ok_bind]
    refine ⟨_, rfl, ?_, hoffset, rfl, hI.idx_len, ?_, ?_, ?_⟩
    · simp [hI.off_len]
    · intro i hi hdi
      by_cases h : i = v
      · subst h; rw [hd] at hdi; cases hdi
      · exact hI.idx i (by omega) hdi
    · have : keepRow del L v = [] := by simp [keepRow, hd]
      simp only [this, List.length_nil] at hks
      simp only [hI.removed]; omega
    · rw [rank_succ, hd]; simp [hI.iv]
  | false =>
    have hfl : flagRow del L v = (row L v).map del := by simp [flagRow, hd]
    rw [hfl] at hov
    have w2 : wr s.newIdx v s.iv = .ok (s.newIdx.set v s.iv) := wr_ok (by rw [hI.idx_len]; exact hsafe hd)
    simp only [Bool.not_false, if_true, hov, w2, Out.ok_bind]
    refine ⟨_, rfl, ?_, hoffset, rfl, ?_, ?_, ?_, ?_⟩
    · simp [hI.off_len]
    · simp [hI.idx_len]
    · intro i hi hdi
      simp only []
      rw [List.getElem?_set]
      by_cases h : v = i
      · subst h
        simp [hI.iv, hI.idx_len]
        have := hsafe hd; simpa using this
      · rw [if_neg h]; exact hI.idx i (by omega) hdi
    · have : keepRow del L v = (row L v).filter (fun x => !del x) := by simp [keepRow, hd]
      rw [this, ← List.countP_eq_length_filter] at hks hkr
      have hc := List.length_eq_countP_add_countP (p := del) (l := row L v)
      have hc2 : (row L v).countP (fun a => decide ¬del a = true) = (row L v).countP (fun x => !del x) := by
        apply List.countP_congr; intro x _; cases del x <;> simp
      rw [hc2] at hc
      simp only [hI.removed]; omega
    · rw [rank_succ, hd]; simp [hI.iv]

theorem eraseInv_zero {del : Nat → Bool} {g : Graph} {L} (h : g.Rep L) (ho : g.off = offs L) :
    EraseInv del L 0 ⟨g.off, List.replicate g.adj.length false, List.replicate g.adj.length sizeMax, 0, 0⟩ := by
  constructor
  · simp [ho]
  · intro i hi; simp [ho, offs_getElem? L hi]
  · simp [h.1]
  · simp [h.1]
  · intro i hi; omega
  · simp
  · simp [rank]

theorem filter_flags (del : Nat → Bool) (L : List (List Nat)) {n : Nat} (h : n ≤ L.length) :
    (((L.take n).flatten.zip ((List.range n).map (flagRow del L)).flatten).filter fun p => !p.2).map Prod.fst =
      ((List.range n).map (keepRow del L)).flatten := by
  induction n with
  | zero => simp
  | succ n ih =>
    rw [flatten_map_range_succ, flatten_map_range_succ, psum_range L h, flatten_map_range_succ,
      List.zip_append, List.filter_append, List.map_append, ← psum_range L (by omega), ih (by omega)]
    · congr 1
      unfold flagRow keepRow
      cases hd : del n
      · simp only [Bool.false_eq_true, if_false]
        generalize row L n = r
        induction r with
        | nil => rfl
        | cons a r ih2 => cases ha : del a <;> simp [ha, ih2]
      · simp only [if_true]
        generalize row L n = r
        induction r with
        | nil => rfl
        | cons a r ih2 =>
          simp only [List.map_cons, List.zip_cons_cons, List.filter_cons, Bool.not_true, Bool.false_eq_true, if_false, ih2]
    · rw [← psum_range L (by omega)]; exact (flags_length del L (by omega)).symm

theorem zipIdx_filter (f : Nat → α) (q : Nat → Bool) (n : Nat) :
    ((((List.range n).map f).zipIdx).filter fun p => q p.2).map Prod.fst = ((List.range n).filter q).map f := by
  induction n with
  | zero => simp
  | succ n ih =>
    rw [List.range_succ, List.map_append, List.zipIdx_append, List.filter_append, List.map_append, ih,
      List.filter_append, List.map_append]
    congr 1
    cases h : q n <;> simp [h]

/-- Complete behaviour of `erase_if` on a stored list of rows. -/
theorem Rep.eraseIf {g : Graph} {L} (h : g.Rep L) (hr : ∀ i, ∀ j ∈ row L i, j < L.length) (del : Nat → Bool)
    (ho : g.off = offs L) (hsafe : ∀ v, v < L.length → del v = false → v < L.flatten.length) :
    ∃ g', g.eraseIf del = .ok g' ∧ g'.adj = (eraseRows del L).flatten ∧ g'.off = offs (eraseRows del L) := by
  obtain ⟨s, hloop, hI⟩ := loop_inv (body := eraseBody L.flatten del) (EraseInv del L) (n := L.length)
    (eraseInv_zero h ho) (fun i s hi hI => eraseBody_ok hI hi (hsafe i hi))
  have hk := ksum_le del L (Nat.le_refl _)
  have hoff : s.off.set L.length (ksum del L L.length) = (List.range (L.length + 1)).map (ksum del L) := by
    apply List.ext_getElem?
    intro i
    rw [List.getElem?_set]
    by_cases hi : L.length = i
    · subst hi; simp [hI.off_len]
    · rw [if_neg hi]
      by_cases hi' : i < L.length
      · rw [hI.off i (by omega), if_pos hi', List.getElem?_map, List.getElem?_range (by omega)]
        rfl
      · rw [List.getElem?_eq_none (by rw [hI.off_len]; omega), List.getElem?_eq_none (by simp; omega)]
  have hadj : (((L.flatten.zip s.adjDel).filter fun p => !p.2).map Prod.fst) = (keptRows del L).flatten := by
    have := filter_flags del L (Nat.le_refl L.length)
    rw [List.take_length] at this
    rw [hI.adjDel, psum_length]
    simp only [Nat.sub_self, List.replicate_zero, List.append_nil]
    rw [this, keptRows, keptRows_flatten]
  have hmem : ∀ x ∈ (keptRows del L).flatten, rd s.newIdx x = .ok (rank del x) := by
    intro x hx
    simp only [keptRows, List.mem_flatten, List.mem_map] at hx
    obtain ⟨_, ⟨v, hv, rfl⟩, hx⟩ := hx
    obtain ⟨_, hv2⟩ := mem_kept.mp hv
    simp only [keepRow, hv2, Bool.false_eq_true, if_false, List.mem_filter, Bool.not_eq_true'] at hx
    exact rd_of_some (hI.idx x (hr v x hx.1) hx.2)
  have hoff2 : ((((List.range (L.length + 1)).map (ksum del L)).zipIdx.filter
      fun p => !(decide (p.2 < L.length) && del p.2)).map Prod.fst) = offs (keptRows del L) := by
    rw [zipIdx_filter (ksum del L) (fun i => !(decide (i < L.length) && del i)), offs_keptRows, List.range_succ,
      List.filter_append, List.map_append]
    congr 1
    · congr 1
      unfold kept
      apply List.filter_congr
      intro x hx
      simp [List.mem_range.mp hx]
    · simp
  refine ⟨⟨(eraseRows del L).flatten, offs (eraseRows del L)⟩, ?_, rfl, rfl⟩
  unfold Graph.eraseIf
  have r1 : rd s.off L.length = .ok (psum L L.length) := rd_of_some (by rw [hI.off _ (Nat.le_refl _)]; simp)
  have hu : usub (psum L L.length) s.removed = ksum del L L.length := by
    rw [hI.removed, usub_of_le (by omega)]; omega
  have w1 : wr s.off L.length (ksum del L L.length) = .ok (s.off.set L.length (ksum del L L.length)) :=
    wr_ok (by rw [hI.off_len]; omega)
  have r2 : rd (offs (keptRows del L)) ((offs (keptRows del L)).length - 1) = .ok (keptRows del L).flatten.length := by
    apply rd_of_some
    rw [offs_length, Nat.add_sub_cancel, offs_getElem? _ (Nat.le_refl _), psum_length]
  have hmo := mapOut_ok hmem
  simp only [h.sizeVertex, h.1] at hloop ⊢
  simp only [hloop, Out.ok_bind, hI.off_len, Nat.add_sub_cancel, r1, hu, w1, hoff, hoff2, hadj, hmo, r2,
    Out.pure_eq]
  simp only [List.length_map, beq_self_eq_true, assert_true, Out.ok_bind]
  rw [eraseRows_eq, offs_map_map, List.map_flatten]

/-- `erase_if` on the default constructed graph dereferences the back of an empty vector. -/
theorem eraseIf_new (del : Nat → Bool) {g : Graph} (ho : g.off = []) : g.eraseIf del = .ub := by
  unfold Graph.eraseIf
  simp [Graph.sizeVertex, ho, loop, rd]

/-- `erase_if` writes out of bounds when a surviving vertex index reaches the number of stored adjacencies. -/
theorem Rep.eraseIf_ub {g : Graph} {L} (h : g.Rep L) (del : Nat → Bool)
    (hbad : ∃ v, v < L.length ∧ del v = false ∧ L.flatten.length ≤ v) : g.eraseIf del = .ub := by
  -- smallest offending vertex
  classical
  obtain ⟨hv1, hv2, hv3⟩ := Nat.find_spec hbad
  have hmin := fun m => Nat.find_min hbad (m := m)
  generalize Nat.find hbad = v at *
  have ho := h.off (by rintro rfl; simp at hv1)
  obtain ⟨s, hloop, hI⟩ := loop_inv (body := eraseBody L.flatten del) (EraseInv del L) (n := v)
    (eraseInv_zero h ho) (fun i s hi hI => eraseBody_ok hI (by omega) (fun hd => by
      by_contra hc
      exact hmin i hi ⟨by omega, hd, by omega⟩))
  have hub : eraseBody L.flatten del v s = .ub := by
    have r1 : rd s.off v = .ok (psum L v) := rd_of_some (by rw [hI.off v (by omega)]; simp)
    have r2 : rd s.off (v + 1) = .ok (psum L (v + 1)) :=
    rd_of_some (by rw [hI.off (v + 1) (by omega), if_neg (by omega)])
    have w1 : ∀ x, wr s.off v x = .ok (s.off.set v x) := fun x => wr_ok (by rw [hI.off_len]; omega)
    have w2 : wr s.newIdx v s.iv = .ub := wr_ub (by rw [hI.idx_len]; exact hv3)
    unfold eraseBody
    simp only [Graph.adjIter, r1, r2, Out.ok_bind, Out.pure_eq, slice_row L hv1, w1, hv2, Bool.not_false, if_true, w2,
      Out.ub_bind]
  unfold Graph.eraseIf
  rw [← h.1] at hloop hub
  simp only [h.sizeVertex, loop_fail hv1 hloop hub, Out.ub_bind]

/-! ### Properties of the resulting rows -/

theorem eraseRows_length (del : Nat → Bool) (L : List (List Nat)) : (eraseRows del L).length = rank del L.length := by
  simp [eraseRows, kept_length]

theorem row_eraseRows {del : Nat → Bool} {L : List (List Nat)} {v : Nat} (hv : v < L.length) (hd : del v = false) :
    row (eraseRows del L) (rank del v) = ((row L v).filter (fun x => !del x)).map (rank del) := by
  unfold row eraseRows
  rw [List.getElem?_map, kept_getElem? del hv hd]
  rfl

theorem rank_inj {del : Nat → Bool} {u v : Nat} (hu : del u = false) (hv : del v = false)
    (h : rank del u = rank del v) : u = v := by
  rcases Nat.lt_trichotomy u v with h1 | h1 | h1
  · have := rank_lt del h1 hu; omega
  · exact h1
  · have := rank_lt del h1 hv; omega

theorem rank_surj (del : Nat → Bool) {n i : Nat} (h : i < rank del n) : ∃ v, v < n ∧ del v = false ∧ rank del v = i := by
  have hlt : i < (kept del n).length := by rw [kept_length]; exact h
  have hm := List.getElem_mem hlt
  obtain ⟨h1, h2⟩ := mem_kept.mp hm
  refine ⟨_, h1, h2, ?_⟩
  have := kept_getElem? del h1 h2
  rw [List.getElem?_eq_some_iff] at this
  obtain ⟨h3, h4⟩ := this
  have nd : (kept del n).Nodup := (kept_sorted del n).imp (fun h => Nat.ne_of_lt h)
  exact (List.Nodup.getElem_inj_iff nd).mp h4

theorem eraseRows_good {d : Bool} {del : Nat → Bool} {L : List (List Nat)} (hg : Good d L) :
    Good d (eraseRows del L) := by
  have key : ∀ i, i < (eraseRows del L).length → ∃ v, v < L.length ∧ del v = false ∧ rank del v = i := by
    intro i hi; rw [eraseRows_length] at hi; exact rank_surj del hi
  constructor
  · intro i
    by_cases hi : i < (eraseRows del L).length
    · obtain ⟨v, hv, hd, rfl⟩ := key i hi
      rw [row_eraseRows hv hd, List.pairwise_map]
      have hs := (hg.sorted v).filter (fun x => !del x)
      refine List.Pairwise.imp_of_mem (fun {a b} ha hb hab => ?_) hs
      have := (List.mem_filter.mp ha).2
      exact rank_lt del hab (by simpa using this)
    · rw [row_of_ge (by omega)]; exact List.Pairwise.nil
  · intro i j hj
    obtain ⟨v, hv, hd, rfl⟩ := key i (lt_of_mem_row hj)
    rw [row_eraseRows hv hd, List.mem_map] at hj
    obtain ⟨x, hx, rfl⟩ := hj
    obtain ⟨hx1, hx2⟩ := List.mem_filter.mp hx
    rw [eraseRows_length]
    exact rank_lt del (hg.range v x hx1) (by simpa using hx2)
  · intro i hi
    obtain ⟨v, hv, hd, rfl⟩ := key i (lt_of_mem_row hi)
    rw [row_eraseRows hv hd, List.mem_map] at hi
    obtain ⟨x, hx, hxv⟩ := hi
    obtain ⟨hx1, hx2⟩ := List.mem_filter.mp hx
    have := rank_inj (by simpa using hx2) hd hxv
    subst this
    exact hg.loopless x hx1
  · intro hd0 i j hj
    obtain ⟨v, hv, hd, rfl⟩ := key i (lt_of_mem_row hj)
    rw [row_eraseRows hv hd, List.mem_map] at hj
    obtain ⟨x, hx, rfl⟩ := hj
    obtain ⟨hx1, hx2⟩ := List.mem_filter.mp hx
    rw [row_eraseRows (hg.range v x hx1) (by simpa using hx2), List.mem_map]
    exact ⟨v, List.mem_filter.mpr ⟨hg.symm hd0 v x hx1, by simpa using hd⟩, rfl⟩

/-- Adjacency after `erase_if`. -/
theorem mem_eraseRows {del : Nat → Bool} {L : List (List Nat)} {u v : Nat}
    (hu : u < L.length) (hdu : del u = false) (hdv : del v = false) :
    rank del v ∈ row (eraseRows del L) (rank del u) ↔ v ∈ row L u := by
  rw [row_eraseRows hu hdu, List.mem_map]
  constructor
  · rintro ⟨x, hx, hxv⟩
    obtain ⟨hx1, hx2⟩ := List.mem_filter.mp hx
    have := rank_inj (by simpa using hx2) hdv hxv
    exact this ▸ hx1
  · intro h
    exact ⟨v, List.mem_filter.mpr ⟨h, by simpa using hdv⟩, rfl⟩

end Graph
end Disa
