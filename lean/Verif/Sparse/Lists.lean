import Verif.Sparse.Mul

/-!
# The constructor from lists on rows
-/

namespace Disa
namespace Sparse

variable {α : Type} {m : Sparse α} {L : Rows α}

/-- A row sorted by columns. -/
def sortRow (r : List (Nat × α)) : List (Nat × α) := r.insertionSort fun x y => x.1 ≤ y.1

/-- A row that the constructor accepts. -/
def GoodRow (c : Nat) (r : List (Nat × α)) : Prop := (∀ x ∈ r, x.1 < c) ∧ (keys r).Nodup

theorem sortRow_perm (r : List (Nat × α)) : (sortRow r).Perm r := List.perm_insertionSort _ r

theorem sortRow_le (r : List (Nat × α)) : (keys (sortRow r)).Pairwise (· ≤ ·) := by
  haveI : Std.Total (α := Nat × α) (fun x y => x.1 ≤ y.1) := ⟨fun x y => Nat.le_total _ _⟩
  haveI : IsTrans (Nat × α) (fun x y => x.1 ≤ y.1) := ⟨fun _ _ _ => Nat.le_trans⟩
  have := List.pairwise_insertionSort (fun x y : Nat × α => x.1 ≤ y.1) r
  exact List.Pairwise.map _ (fun _ _ h => h) this

theorem adj_all {s : List (Nat × α)} (hs : (keys s).Pairwise (· ≤ ·)) :
    ((s.zip s.tail).all fun x => x.1.1 != x.2.1) = true ↔ (keys s).Nodup := by
  induction s with
  | nil => simp
  | cons x s ih =>
    cases s with
    | nil => simp
    | cons y s =>
      simp only [keys, List.map_cons] at hs ih ⊢
      rw [List.pairwise_cons] at hs
      have ih := ih hs.2
      simp only [List.tail_cons, List.zip_cons_cons, List.all_cons, Bool.and_eq_true, bne_iff_ne, ne_eq] at ih ⊢
      rw [ih, List.nodup_cons (a := x.1)]
      refine and_congr_left fun _ => ⟨?_, fun h e => h (by simp [e])⟩
      intro hne hmem
      have h1 := hs.1 y.1 (by simp)
      rcases List.mem_cons.mp hmem with h | h
      · exact hne h
      · have := (List.pairwise_cons.mp hs.2).1 _ h; omega

theorem sortRow_lt {c : Nat} {r : List (Nat × α)} (h : GoodRow c r) : (keys (sortRow r)).Pairwise (· < ·) := by
  have h1 := sortRow_le r
  have h2 : (keys (sortRow r)).Nodup := ((sortRow_perm r).map _).nodup_iff.mpr h.2
  exact (h1.and h2).imp fun ⟨a, b⟩ => Nat.lt_of_le_of_ne a b

theorem Rep.listBody [Zero α] (h : m.Rep L) {i : Nat} (hi : i < L.length) :
    (GoodRow m.colSize L[i] → ∃ m', Sparse.listBody i m = .ok m' ∧ m'.Rep (L.set i (sortRow L[i])) ∧
      m'.colSize = m.colSize) ∧
    (¬ GoodRow m.colSize L[i] → Sparse.listBody i m = .exit 1) := by
  have hv : slice m.vals (psum L i) (psum L (i + 1)) = .ok (L[i].map (·.2)) := by
    have e : m.vals = (L.map (List.map (·.2))).flatten := by rw [h.vals, List.map_flatten]
    have hl : i < (L.map (List.map (·.2))).length := by simpa using hi
    have := slice_row (L.map (List.map (·.2))) hl
    rw [psum_map_map, psum_map_map] at this
    rw [e, this]; simp
  have hz : (keys L[i]).zip (L[i].map (·.2)) = L[i] := by
    generalize L[i] = r
    induction r with
    | nil => rfl
    | cons x r ih => simpa [keys] using ih
  have hall : ((sortRow L[i]).all fun x => decide (x.1 < m.colSize)) = true ↔ ∀ x ∈ L[i], x.1 < m.colSize := by
    simp only [List.all_eq_true, decide_eq_true_eq]
    exact ⟨fun h' x hx => h' x ((sortRow_perm _).mem_iff.mpr hx), fun h' x hx => h' x ((sortRow_perm _).mem_iff.mp hx)⟩
  have hadj := adj_all (sortRow_le L[i])
  have hnd : (keys (sortRow L[i])).Nodup ↔ (keys L[i]).Nodup := ((sortRow_perm L[i]).map _).nodup_iff
  unfold Sparse.listBody
  simp only [h.off_rd hi (Nat.le_of_lt hi), h.off_rd hi hi, h.slice_keys hi, hv, Out.ok_bind, hz]
  change (_ → ∃ m', (assert ((sortRow L[i]).all fun x => decide (x.1 < m.colSize)) >>= fun _ =>
    assert (((sortRow L[i]).zip (sortRow L[i]).tail).all fun x => x.1.1 != x.2.1) >>= fun _ => _) = _ ∧ _) ∧
    (_ → (assert ((sortRow L[i]).all fun x => decide (x.1 < m.colSize)) >>= fun _ =>
    assert (((sortRow L[i]).zip (sortRow L[i]).tail).all fun x => x.1.1 != x.2.1) >>= fun _ => _) = _)
  constructor
  · intro hg
    have hlen : (sortRow L[i]).length = L[i].length := (sortRow_perm _).length_eq
    rw [hall.mpr hg.1, hadj.mpr (hnd.mpr hg.2)]
    have ow : ∀ {β : Type} (f : Nat × α → β), overwrite (L.flatten.map f) (psum L i) ((sortRow L[i]).map f)
        = .ok ((L.set i (sortRow L[i])).flatten.map f) := by
      intro β f
      have hl : i < (L.map (List.map f)).length := by simpa using hi
      have := overwrite_flatten (L.map (List.map f)) hl (r := (sortRow L[i]).map f) (by simp [hlen])
      rw [psum_map_map] at this
      rw [List.map_flatten, this, List.map_flatten, List.map_set]
    have hov : overwrite m.vals (psum L i) ((sortRow L[i]).map (·.2)) = .ok ((L.set i (sortRow L[i])).flatten.map (·.2)) := by
      rw [h.vals]; exact ow _
    have hoc : overwrite m.cols (psum L i) ((sortRow L[i]).map (·.1)) = .ok ((L.set i (sortRow L[i])).flatten.map (·.1)) := by
      rw [h.cols]; exact ow _
    refine ⟨{ m with cols := (L.set i (sortRow L[i])).flatten.map (·.1), vals := (L.set i (sortRow L[i])).flatten.map (·.2) },
      ?_, ?_, rfl⟩
    · change (overwrite m.vals (psum L i) ((sortRow L[i]).map (·.2)) >>= fun vals =>
        overwrite m.cols (psum L i) ((sortRow L[i]).map (·.1)) >>= fun cols => _) = _
      rw [hov, Out.ok_bind, hoc]; rfl
    · refine ⟨?_, rfl, rfl, by simpa using h.small⟩
      left
      have ho : m.off = Disa.offs L := by
        rcases h.offs with h' | ⟨h', _⟩
        · exact h'
        · subst h'; simp at hi
      show m.off = _
      rw [ho, offs_eq_iff]
      refine ⟨by simp, fun k hk => ?_⟩
      rw [offs_getElem? L (by simpa using hk), psum_set L hi, hlen]
      split
      · rfl
      · have h1 := psum_succ L hi
        have h2 : psum L (i + 1) ≤ psum L k := psum_mono L (by omega)
        congr 1; omega
  · intro hg
    by_cases h1 : ∀ x ∈ L[i], x.1 < m.colSize
    · have h2 : ¬ (((sortRow L[i]).zip (sortRow L[i]).tail).all fun x => x.1.1 != x.2.1) = true := by
        rw [hadj, hnd]; exact fun h2 => hg ⟨h1, h2⟩
      rw [hall.mpr h1, Bool.not_eq_true _ |>.mp h2]; rfl
    · have h2 : ¬ ((sortRow L[i]).all fun x => decide (x.1 < m.colSize)) = true := by rw [hall]; exact h1
      rw [Bool.not_eq_true _ |>.mp h2]; rfl

/-- The loop over the rows. -/
theorem Rep.listLoop [Zero α] (h : m.Rep L) :
    ((∀ r ∈ L, GoodRow m.colSize r) → ∃ m', loop L.length Sparse.listBody m = .ok m' ∧ m'.Rep (L.map sortRow) ∧
      m'.colSize = m.colSize) ∧
    ((∃ r ∈ L, ¬ GoodRow m.colSize r) → loop L.length Sparse.listBody m = .exit 1) := by
  have good : ∀ n, n ≤ L.length → (∀ k (hk : k < n) (hk' : k < L.length), GoodRow m.colSize L[k]) →
      ∃ m' N, loop n Sparse.listBody m = .ok m' ∧ m'.Rep N ∧ m'.colSize = m.colSize ∧ N.length = L.length ∧
        ∀ i, row N i = if i < n then sortRow (row L i) else row L i := by
    intro n
    induction n with
    | zero => intro _ _; exact ⟨m, L, rfl, h, rfl, rfl, by simp⟩
    | succ n ih =>
      intro hn hg
      obtain ⟨s, N, h1, h2, h3, h4, h5⟩ := ih (by omega) (fun k hk => hg k (by omega))
      have hnN : n < N.length := by omega
      have hr : N[n] = L[n] := by
        rw [← row_of_lt hnN, ← row_of_lt (L := L) (by omega), h5, if_neg (by omega)]
      obtain ⟨s', h6, h7, h8⟩ := (h2.listBody hnN).1 (by rw [hr, h3]; exact hg n (by omega) (by omega))
      refine ⟨s', _, by simp [loop, h1, h6], h7, by rw [h8, h3], by simpa using h4, ?_⟩
      intro i
      rw [row_set hnN]
      by_cases hi : i = n
      · subst hi; rw [if_pos rfl, if_pos (by omega), hr, row_of_lt (by omega)]
      · rw [if_neg hi, h5]
        by_cases hi' : i < n
        · rw [if_pos hi', if_pos (by omega)]
        · rw [if_neg hi', if_neg (by omega)]
  constructor
  · intro hg
    obtain ⟨m', N, h1, h2, h3, h4, h5⟩ := good L.length (Nat.le_refl _) (fun k _ hk => hg _ (List.getElem_mem hk))
    refine ⟨m', h1, ?_, h3⟩
    rw [rows_ext (L := L.map sortRow) (M := N) (by simp [h4])]
    · exact h2
    · intro i
      rw [row_map _ (by rfl), h5]
      split
      · rfl
      · rw [row_of_ge (by omega)]; rfl
  · rintro ⟨r, hr, hbad⟩
    obtain ⟨n, hn, rfl⟩ := List.mem_iff_getElem.mp hr
    classical
    have hex : ∃ k, ∃ hk : k < L.length, ¬ GoodRow m.colSize L[k] := ⟨n, hn, hbad⟩
    let k := Nat.find hex
    obtain ⟨hk, hkb⟩ := Nat.find_spec hex
    have hmin : ∀ a (ha : a < k) (ha' : a < L.length), GoodRow m.colSize L[a] := by
      intro a ha ha'
      by_contra hc
      exact Nat.find_min hex ha ⟨ha', hc⟩
    obtain ⟨s, N, h1, h2, h3, h4, h5⟩ := good k (Nat.le_of_lt hk) hmin
    have hkN : k < N.length := by omega
    have hr : N[k] = L[k] := by
      rw [← row_of_lt hkN, ← row_of_lt (L := L) hk, h5, if_neg (Nat.lt_irrefl k)]
    have hfail : Sparse.listBody k s = .exit 1 := (h2.listBody hkN).2 (by rw [hr, h3]; exact hkb)
    have : ∀ n, k < n → loop n Sparse.listBody m = .exit 1 := by
      intro n
      induction n with
      | zero => omega
      | succ n ih =>
        intro hkn
        by_cases hh : k = n
        · subst hh; simp only [loop, h1, Out.ok_bind, hfail]
        · simp only [loop, ih (by omega)]; rfl
    exact this _ hk

/-- The rows that the lists of the constructor describe. -/
def rawRows (nonZero : List Nat) (pairs : List (Nat × α)) : Rows α :=
  (List.range (nonZero.length - 1)).map fun i =>
    (pairs.drop (nonZero.getD i 0)).take (nonZero.getD (i + 1) 0 - nonZero.getD i 0)

theorem rawRows_take {nz : List Nat} {ps : List (Nat × α)} (h0 : nz[0]? = some 0)
    (hm : ∀ i, i + 1 < nz.length → nz.getD i 0 ≤ nz.getD (i + 1) 0) (n : Nat) (hn : n < nz.length) :
    ((rawRows nz ps).take n).flatten = ps.take (nz.getD n 0) := by
  induction n with
  | zero => simp [List.getD, h0]
  | succ n ih =>
    have hlen : n < (rawRows nz ps).length := by simp [rawRows]; omega
    rw [List.take_succ_eq_append_getElem hlen, List.flatten_append, ih (by omega)]
    have hg : (rawRows nz ps)[n] = (ps.drop (nz.getD n 0)).take (nz.getD (n + 1) 0 - nz.getD n 0) := by
      simp only [rawRows, List.getElem_map, List.getElem_range]
    rw [hg]
    simp only [List.flatten_cons, List.flatten_nil, List.append_nil]
    have := hm n hn
    generalize nz.getD n 0 = a at *
    generalize nz.getD (n + 1) 0 = b at *
    have hb : b = a + (b - a) := by omega
    conv => rhs; rw [hb]
    rw [List.take_add]

theorem adj_le {nz : List Nat} : ((nz.zip nz.tail).all fun x => decide (x.1 ≤ x.2)) = true ↔
    ∀ i, i + 1 < nz.length → nz.getD i 0 ≤ nz.getD (i + 1) 0 := by
  induction nz with
  | nil => simp
  | cons x s ih =>
    cases s with
    | nil => simp
    | cons y s =>
      simp only [List.tail_cons, List.zip_cons_cons, List.all_cons, Bool.and_eq_true, decide_eq_true_eq] at ih ⊢
      rw [ih]
      constructor
      · rintro ⟨h1, h2⟩ i hi
        cases i with
        | zero => simpa using h1
        | succ i => simpa using h2 i (by simpa using hi)
      · intro h
        exact ⟨by simpa using h 0 (by simp), fun i hi => by simpa using h (i + 1) (by simpa using hi)⟩

/-- The conditions on the offsets and the sizes that the constructor checks. -/
def GoodLists (nz index : List Nat) (value : List α) : Prop :=
  nz[0]? = some 0 ∧ nz.getLastD 0 = index.length ∧ (∀ i, i + 1 < nz.length → nz.getD i 0 ≤ nz.getD (i + 1) 0) ∧
    index.length = value.length

theorem rawRows_rep {nz index : List Nat} {value : List α} (h : GoodLists nz index value) (hn : nz.length ≤ sizeMax)
    (c : Nat) : (⟨nz, index, value, c⟩ : Sparse α).Rep (rawRows nz (index.zip value)) := by
  obtain ⟨h0, hl, hm, he⟩ := h
  have hpos : 0 < nz.length := by
    rcases Nat.eq_zero_or_pos nz.length with h | h
    · have : nz = [] := List.eq_nil_of_length_eq_zero h
      simp [this] at h0
    · exact h
  have hlast : nz.getD (nz.length - 1) 0 = index.length := by
    rw [← hl]
    have hne : nz ≠ [] := by intro h; simp [h] at hpos
    rw [List.getLastD_eq_getLast?, List.getLast?_eq_getElem?, List.getD]
  have hlen : (rawRows nz (index.zip value)).length = nz.length - 1 := by simp [rawRows]
  have hz : (index.zip value).length = index.length := by simp [he]
  have hnle : ∀ n, n < nz.length → nz.getD n 0 ≤ index.length := by
    intro n hnl
    rw [← hlast]
    have : ∀ d, n + d < nz.length → nz.getD n 0 ≤ nz.getD (n + d) 0 := by
      intro d
      induction d with
      | zero => intro _; exact Nat.le_refl _
      | succ d ih => intro hd; exact Nat.le_trans (ih (by omega)) (hm (n + d) (by omega))
    have := this (nz.length - 1 - n) (by omega)
    rwa [show n + (nz.length - 1 - n) = nz.length - 1 by omega] at this
  have hfl : (rawRows nz (index.zip value)).flatten = index.zip value := by
    have := rawRows_take (ps := index.zip value) h0 hm (nz.length - 1) (by omega)
    rw [← hlen, List.take_length, hlen, hlast, ← hz, List.take_length] at this
    exact this
  refine ⟨.inl ?_, ?_, ?_, by rw [hlen]; omega⟩
  · rw [offs_eq_iff]
    refine ⟨by rw [hlen]; show nz.length = _; omega, ?_⟩
    intro i hi
    rw [hlen] at hi
    have hin : i < nz.length := by omega
    unfold psum
    rw [rawRows_take h0 hm i hin, List.length_take, hz]
    show nz[i]? = _
    have := hnle i hin
    rw [List.getElem?_eq_getElem hin]
    have hg : nz.getD i 0 = nz[i] := by simp [hin]
    rw [hg] at this ⊢
    congr 1; omega
  · rw [hfl]
    show index = (index.zip value).map Prod.fst
    rw [List.map_fst_zip (Nat.le_of_eq he)]
  · rw [hfl]
    show value = (index.zip value).map Prod.snd
    rw [List.map_snd_zip (Nat.le_of_eq he.symm)]

/-- Exact behaviour of the constructor from lists. -/
theorem ofLists_spec [Zero α] {nz index : List Nat} {value : List α} (hne : nz ≠ []) (hn : nz.length ≤ sizeMax) (c : Nat) :
    (GoodLists nz index value ∧ (∀ r ∈ rawRows nz (index.zip value), GoodRow c r) →
      ∃ m, ofLists nz index value c = .ok m ∧ m.Rep ((rawRows nz (index.zip value)).map sortRow) ∧ m.colSize = c) ∧
    (¬ (GoodLists nz index value ∧ ∀ r ∈ rawRows nz (index.zip value), GoodRow c r) → ofLists nz index value c = .exit 1) := by
  have hpos : 0 < nz.length := List.length_pos_iff.mpr hne
  have hrd : rd nz 0 = .ok nz[0] := rd_ok hpos
  have e0 : (nz[0] == 0) = true ↔ nz[0]? = some 0 := by simp [hpos]
  have hrl : (rawRows nz (index.zip value)).length = nz.length - 1 := by simp [rawRows]
  unfold ofLists
  simp only [hrd, Out.ok_bind]
  constructor
  · rintro ⟨hg, hr⟩
    obtain ⟨m', h1, h2, h3⟩ := (rawRows_rep hg hn c).listLoop.1 hr
    rw [hrl] at h1
    rw [e0.mpr hg.1, adj_le.mpr hg.2.2.1]
    simp only [hg.2.1, hg.2.2.2, beq_self_eq_true, assert_true, Out.ok_bind]
    exact ⟨m', h1, h2, h3⟩
  · intro hbad
    by_cases hg : GoodLists nz index value
    · have hr : ∃ r ∈ rawRows nz (index.zip value), ¬ GoodRow c r := by
        by_contra hc
        exact hbad ⟨hg, fun r hr => by by_contra h; exact hc ⟨r, hr, h⟩⟩
      have h1 := (rawRows_rep hg hn c).listLoop.2 hr
      rw [hrl] at h1
      rw [e0.mpr hg.1, adj_le.mpr hg.2.2.1]
      simp only [hg.2.1, hg.2.2.2, beq_self_eq_true, assert_true, Out.ok_bind]
      exact h1
    · by_cases a1 : nz[0]? = some 0
      swap
      · have : (nz[0] == 0) = false := by rw [← Bool.not_eq_true, e0]; exact a1
        rw [this]; rfl
      rw [e0.mpr a1]
      by_cases a2 : nz.getLastD 0 = index.length
      swap
      · have : (nz.getLastD 0 == index.length) = false := by simpa using a2
        rw [this]; rfl
      by_cases a3 : ∀ i, i + 1 < nz.length → nz.getD i 0 ≤ nz.getD (i + 1) 0
      swap
      · have : ((nz.zip nz.tail).all fun x => decide (x.1 ≤ x.2)) = false := by
          rw [← Bool.not_eq_true, adj_le]; exact a3
        rw [this, a2]; simp only [beq_self_eq_true, assert_true, Out.ok_bind]; rfl
      by_cases a4 : index.length = value.length
      · exact absurd ⟨a1, a2, a3, a4⟩ hg
      · have : (index.length == value.length) = false := by simpa using a4
        rw [adj_le.mpr a3, a2, this]; simp only [beq_self_eq_true, assert_true, Out.ok_bind]; rfl

end Sparse
end Disa
