import Verif.Sparse.TwoRows
import Verif.Props.CsrRow
import Verif.Props.SparseCapacity

/-!
# Property C155: rows of one sparse matrix that are used side by side
-/

namespace Disa.Props

open Disa Spec Sparse

variable {α : Type}

/-- The vectors hold their elements. -/
def CsrFits (c : CsrRoom α) : Prop := c.data.cols.length ≤ c.cols ∧ c.data.vals.length ≤ c.vals

/-- C155 as stated in the properties file: whatever is assigned through one row, another row reads what the matrix stores. -/
def C155 : Prop := ∀ (a b : Alloc) (c : CsrRoom Int), Reached c.data → CsrFits c → ∀ (i k j l : Nat) (x : Int) (v w v' : RowView)
  (c' : CsrRoom Int), i + 1 < sizeMax → j < sizeMax → RowView.make c.data i = .ok v → RowView.make c.data k = .ok w →
  c.assign a b v j x = .ok (c', v') →
  ∃ o, csrLookup c'.data k l = .ok o ∧ c.read c' w l = match o with
    | some y => .ok y
    | none => .exit 1

theorem elements_flat {m : CsrData α} {L : Rows α} (h : m.Rep L) : ∃ E, csrElements m = .ok E ∧ E.map (·.2) = L.flatten := by
  refine ⟨_, elements_ok h, ?_⟩
  rw [List.map_flatten, List.map_map]
  have : ((fun l : List (Nat × Nat × α) => l.map (·.2)) ∘ fun r : List (Nat × α) × Nat => r.1.map fun e => (r.2, e.1, e.2)) =
      fun r => r.1 := by
    funext r
    simp [Function.comp_def]
  rw [this]
  congr 1
  exact List.zipIdx_map_fst 0 L

theorem window_at {m : CsrData α} {L : Rows α} (h : m.Rep L) (r : Nat) {p q : Nat} (hpq : p ≤ q) (hq : q ≤ L.flatten.length)
    (l : Nat) : RowView.at' m ⟨r, p, q⟩ l = match ((L.flatten.drop p).take (q - p)).lookup l with
      | some y => .ok y
      | none => .exit 1 := by
  have hl := h.lengths
  have hc : slice m.cols p q = .ok (keys ((L.flatten.drop p).take (q - p))) := by
    unfold slice
    rw [if_pos (by omega), h.cols]
    simp [keys, List.map_take, List.map_drop]
  unfold RowView.at'
  simp only [hc, Out.ok_bind]
  generalize hW : (L.flatten.drop p).take (q - p) = W
  by_cases hj : l ∈ keys W
  · obtain ⟨hlt, he⟩ := lookup_idxOf hj
    rw [he]
    have hne : ((keys W).idxOf l != (keys W).length) = true := by
      have := List.idxOf_lt_length_iff.mpr hj
      simp only [bne_iff_ne]; omega
    rw [hne, assert_true, Out.ok_bind]
    apply rd_of_some
    have e : ∀ n, n < W.length → W[n]? = L.flatten[p + n]? := by
      intro n hn
      subst hW
      rw [List.length_take] at hn
      rw [List.getElem?_take, if_pos (by omega), List.getElem?_drop]
    rw [h.vals, List.getElem?_map, ← e _ hlt, List.getElem?_eq_getElem hlt]
    rfl
  · rw [lookup_eq_none.mpr hj, List.idxOf_of_notMem hj]
    simp only [bne_self_eq_false]
    rfl

variable [Zero α]

theorem assign_room (a b : Alloc) {c : CsrRoom α} {L : Rows α} (h : c.data.Rep L) (hs : Sorted L) {i j : Nat} (hi : i < L.length)
    (hi' : i + 1 < sizeMax) (hj : j < sizeMax) (x : α) : ∃ m', m'.Rep (putRows i j x L) ∧
      c.assign a b ⟨i, psum L i, psum L (i + 1)⟩ j x = .ok (⟨m',
        if j ∉ keys (row L i) then a.fit c.cols c.data.cols.length (c.data.cols.length + 1) else c.cols,
        if j ∉ keys (row L i) then b.fit c.vals c.data.vals.length (c.data.vals.length + 1) else c.vals⟩,
        ⟨i, psum (putRows i j x L) i, psum (putRows i j x L) (i + 1)⟩) := by
  obtain ⟨m1, it, f, k1, k2, k3, k4⟩ := csr_insertOrAssign h hs hi' hj x
  refine ⟨m1, k2, ?_⟩
  unfold CsrRoom.assign
  simp only [k1, Out.ok_bind, view_make k2 (show i < (putRows i j x L).length by rw [putRows_length]; omega), Out.pure_eq]
  by_cases hm : j ∈ keys (row L i)
  · have : f = false := by
      cases f
      · rfl
      · exact absurd hm (k4.mp rfl)
    subst this
    simp [hm]
  · rw [k4.mpr hm]
    simp [hm]

theorem fit_same {a : Alloc} {c s n : Nat} : a.fit c s n = c ↔ n ≤ c := by
  unfold Alloc.fit
  constructor
  · intro h
    by_contra hn
    rw [if_neg hn] at h
    have := a.grow_le c s n
    omega
  · intro h; rw [if_pos h]

theorem fit_keep (a : Alloc) {c s : Nat} (h : s < c) (p : Prop) [Decidable p] : (if p then a.fit c s (s + 1) else c) = c := by
  split
  · exact fit_same.mpr h
  · rfl

omit [Zero α] in
theorem view_row {m : CsrData α} {L : Rows α} (h : m.Rep L) {i : Nat} {v : RowView} (hv : RowView.make m i = .ok v) :
    i < L.length ∧ v = ⟨i, psum L i, psum L (i + 1)⟩ := by
  by_cases hi : i < L.length
  · rw [view_make h hi] at hv
    cases hv
    exact ⟨hi, rfl⟩
  · exfalso
    unfold RowView.make at hv
    obtain ⟨x, -, hv⟩ := Out.bind_eq_ok.mp hv
    obtain ⟨y, hy, -⟩ := Out.bind_eq_ok.mp hv
    have hl : m.off.length ≤ L.length + 1 := by
      have := h.sizeRow
      unfold Sparse.sizeRow at this
      split at this
      · rename_i he
        have : m.off.length = 0 := by simpa using he
        omega
      · omega
    rw [rd_ub (by omega)] at hy
    cases hy

omit [Zero α] in
theorem psum_setRow {L : Rows α} {i : Nat} (hi : i < L.length) (j : Nat) (x : α) (n : Nat) :
    psum (L.set i (setRow j x (row L i))) n = psum L n := by
  rw [psum_set L hi]
  split
  · rfl
  · have h1 := psum_succ L hi
    have h2 := psum_mono L (show i + 1 ≤ n by omega)
    have : (setRow j x (row L i)).length = L[i].length := by simp [setRow, row_of_lt hi]
    omega

omit [Zero α] in
theorem psum_insRows_le (L : Rows α) (i j : Nat) (x : α) {n : Nat} (hn : n ≤ i) :
    psum (insRows i j x L) n = psum L n := by
  unfold insRows
  split
  · rfl
  · rw [psum_set _ (by simp), if_pos hn, psum_pad]

omit [Zero α] in
/-- Rows that are in the matrix afterwards as they were before are read as they are stored. -/
theorem read_same {m : CsrData α} {L L' : Rows α} (h : m.Rep L') (hs : Sorted L') {k : Nat} (hk : k < L'.length)
    (h1 : psum L' k = psum L k) (h2 : psum L' (k + 1) = psum L (k + 1)) (l : Nat) :
    ∃ o, csrLookup m k l = .ok o ∧ RowView.at' m ⟨k, psum L k, psum L (k + 1)⟩ l = match o with
      | some y => .ok y
      | none => .exit 1 := by
  refine ⟨entry L' k l, csrLookup_ok h hs hk l, ?_⟩
  rw [← h1, ← h2]
  exact view_at h hk l

/-- C155: an assignment to an element that is already stored leaves all other rows in order, also others of the same row. -/
theorem c155_present (a b : Alloc) (c : CsrRoom α) (hm : Reached c.data) (i k j l : Nat) (x : α) (v w v' : RowView)
    (c' : CsrRoom α) (hi' : i + 1 < sizeMax) (hj : j < sizeMax) (hv : RowView.make c.data i = .ok v)
    (hw : RowView.make c.data k = .ok w) (hp : ∃ y, csrLookup c.data i j = .ok (some y)) (h : c.assign a b v j x = .ok (c', v')) :
    ∃ o, csrLookup c'.data k l = .ok o ∧ c.read c' w l = match o with
      | some y => .ok y
      | none => .exit 1 := by
  obtain ⟨-, L, hr, hs, -⟩ := reached_agrees hm
  obtain ⟨hi, rfl⟩ := view_row hr hv
  obtain ⟨hk, rfl⟩ := view_row hr hw
  obtain ⟨m', hr', he⟩ := assign_room a b hr hs hi hi' hj x
  obtain ⟨y, hy⟩ := hp
  rw [csrLookup_ok hr hs hi] at hy
  have hmem : j ∈ keys (row L i) := by
    by_contra hn
    rw [show entry L i j = none from lookup_eq_none.mpr hn] at hy
    cases hy
  rw [he] at h
  cases h
  unfold CsrRoom.read
  simp only [hmem, not_true_eq_false, if_false, and_self, if_true]
  have hps : ∀ n, psum (putRows i j x L) n = psum L n := by
    intro n
    rw [putRows, if_pos hmem]
    exact psum_setRow hi j x n
  exact read_same hr' (sorted_putRows hs i j x) (by rw [putRows_length]; omega) (hps _) (hps _) l

/-- C155: rows above stay in order while the vectors do not move. -/
theorem c155_before (a b : Alloc) (c : CsrRoom α) (hm : Reached c.data) (hf : c.data.cols.length < c.cols ∧ c.data.vals.length < c.vals)
    (i k j l : Nat) (x : α) (v w v' : RowView) (c' : CsrRoom α) (hi' : i + 1 < sizeMax) (hj : j < sizeMax) (hki : k < i)
    (hv : RowView.make c.data i = .ok v) (hw : RowView.make c.data k = .ok w) (h : c.assign a b v j x = .ok (c', v')) :
    ∃ o, csrLookup c'.data k l = .ok o ∧ c.read c' w l = match o with
      | some y => .ok y
      | none => .exit 1 := by
  obtain ⟨-, L, hr, hs, -⟩ := reached_agrees hm
  obtain ⟨hi, rfl⟩ := view_row hr hv
  obtain ⟨hk, rfl⟩ := view_row hr hw
  obtain ⟨m', hr', he⟩ := assign_room a b hr hs hi hi' hj x
  rw [he] at h
  cases h
  unfold CsrRoom.read
  simp only [fit_keep a hf.1, fit_keep b hf.2, and_self, if_true]
  have hps : ∀ n, n ≤ i → psum (putRows i j x L) n = psum L n := by
    intro n hn
    unfold putRows
    split
    · exact psum_setRow hi j x n
    · exact psum_insRows_le L i j x hn
  exact read_same hr' (sorted_putRows hs i j x) (by rw [putRows_length]; omega) (hps k (by omega)) (hps (k + 1) (by omega)) l

/-- C155: if a new element does not fit, every other row dangles. -/
theorem c155_full (a b : Alloc) (c : CsrRoom α) (hm : Reached c.data) (hf : c.cols = c.data.cols.length ∨ c.vals = c.data.vals.length)
    (i j l : Nat) (x : α) (v w v' : RowView) (c' : CsrRoom α) (hi' : i + 1 < sizeMax) (hj : j < sizeMax)
    (hv : RowView.make c.data i = .ok v) (hp : csrLookup c.data i j = .ok none) (h : c.assign a b v j x = .ok (c', v')) :
    c.read c' w l = .ub := by
  obtain ⟨-, L, hr, hs, -⟩ := reached_agrees hm
  obtain ⟨hi, rfl⟩ := view_row hr hv
  obtain ⟨m', hr', he⟩ := assign_room a b hr hs hi hi' hj x
  rw [csrLookup_ok hr hs hi] at hp
  have hmem : j ∉ keys (row L i) := lookup_eq_none.mp (by simpa [entry] using hp)
  rw [he] at h
  cases h
  unfold CsrRoom.read
  simp only [hmem, not_false_eq_true, if_true, fit_same]
  rw [if_neg]
  omega

/-- C155: otherwise the row reads the elements that lie where its own lay before, whichever rows they belong to. -/
theorem c155_window (a b : Alloc) (c : CsrRoom α) (hm : Reached c.data) (hf : c.data.cols.length < c.cols ∧ c.data.vals.length < c.vals)
    (i k j l : Nat) (x : α) (v w v' : RowView) (c' : CsrRoom α) (hi' : i + 1 < sizeMax) (hj : j < sizeMax)
    (hv : RowView.make c.data i = .ok v) (hw : RowView.make c.data k = .ok w) (h : c.assign a b v j x = .ok (c', v')) :
    ∃ E, csrElements c'.data = .ok E ∧ c.read c' w l = match (((E.map (·.2)).drop w.first).take (w.last - w.first)).lookup l with
      | some y => .ok y
      | none => .exit 1 := by
  obtain ⟨-, L, hr, hs, -⟩ := reached_agrees hm
  obtain ⟨hi, rfl⟩ := view_row hr hv
  obtain ⟨hk, rfl⟩ := view_row hr hw
  obtain ⟨m', hr', he⟩ := assign_room a b hr hs hi hi' hj x
  rw [he] at h
  cases h
  obtain ⟨E, hE, hf'⟩ := elements_flat hr'
  refine ⟨E, hE, ?_⟩
  unfold CsrRoom.read
  simp only [fit_keep a hf.1, fit_keep b hf.2, and_self, if_true, hf']
  have hlen : L.flatten.length ≤ (putRows i j x L).flatten.length := by
    rw [putRows_flat]
    omega
  exact window_at hr' k (psum_mono L (show k ≤ k + 1 by omega)) (by have := psum_le L (k + 1); omega) l

/-- C155: the assignment always succeeds, stores the value, and leaves the row it was made through in order. -/
theorem c155_assigned (a b : Alloc) (c : CsrRoom α) (hm : Reached c.data) (hf : CsrFits c) (i j : Nat) (x : α) (v : RowView)
    (hi' : i + 1 < sizeMax) (hj : j < sizeMax) (hv : RowView.make c.data i = .ok v) :
    ∃ c' v', c.assign a b v j x = .ok (c', v') ∧ CsrFits c' ∧ RowView.make c'.data i = .ok v' ∧
      csrLookup c'.data i j = .ok (some x) ∧
      (∀ k l, k < CsrData.sizeRow c.data → ¬ (k = i ∧ l = j) → csrLookup c'.data k l = csrLookup c.data k l) ∧
      ∀ l, ∃ o, csrLookup c'.data i l = .ok o ∧ RowView.at' c'.data v' l = match o with
        | some y => .ok y
        | none => .exit 1 := by
  obtain ⟨-, L, hr, hs, -⟩ := reached_agrees hm
  obtain ⟨hi, rfl⟩ := view_row hr hv
  obtain ⟨m', hr', he⟩ := assign_room a b hr hs hi hi' hj x
  have hs' := sorted_putRows hs i j x
  have hl : ∀ k, k < L.length → k < (putRows i j x L).length := by intro k hk; rw [putRows_length]; omega
  refine ⟨_, _, he, ?_, view_make hr' (hl i hi), ?_, ?_, fun l => read_same hr' hs' (hl i hi) rfl rfl l⟩
  · have h1 := hr.lengths
    have h2 := hr'.lengths
    have h3 := putRows_flat i j x L
    have grow : ∀ (a : Alloc) (c s : Nat), s + 1 ≤ a.fit c s (s + 1) := by
      intro a c s
      unfold Alloc.fit
      split
      · assumption
      · exact a.grow_le _ _ _
    have g1 := grow a c.cols c.data.cols.length
    have g2 := grow b c.vals c.data.vals.length
    obtain ⟨f1, f2⟩ := hf
    by_cases hmem : j ∈ keys (row L i)
    · simp only [hmem, if_true, not_true_eq_false, if_false, CsrFits] at h3 ⊢
      omega
    · simp only [hmem, if_false, not_false_eq_true, if_true, CsrFits] at h3 ⊢
      omega
  · rw [csrLookup_ok hr' hs' (hl i hi), entry_putRows hs, if_pos ⟨rfl, rfl⟩]
  · intro k l hk hne
    rw [csr_sizeRow, hr.sizeRow] at hk
    rw [csrLookup_ok hr' hs' (hl k hk), csrLookup_ok hr hs hk, entry_putRows hs, if_neg hne]

/-- Growing to what is needed. -/
def exactly : Alloc := ⟨fun _ _ n => n, fun c _ => c, sizeMax, fun _ _ _ => le_rfl, fun _ _ h => h, fun _ _ _ => le_rfl⟩

/-- The matrix with the rows `1` and `2`. -/
def twoRows : CsrRoom Int := ⟨⟨[0, 1, 2], [0, 0], [1, 2], 1⟩, 4, 4⟩

theorem reached_two : Reached twoRows.data :=
  ⟨[.insert 0 0 1, .insert 1 0 2], [some true, some true], by simp [CsrOp.Fits, sizeMax], by decide +kernel⟩

/-- C155 does not hold: after an element was added to the first row, the second one does not find its own. -/
theorem c155_violated : ¬ C155 := by
  intro h
  obtain ⟨o, h1, h2⟩ := h exactly exactly twoRows reached_two (by simp [CsrFits, twoRows]) 0 1 1 0 5 ⟨0, 0, 1⟩ ⟨1, 1, 2⟩ ⟨0, 0, 2⟩
    ⟨⟨[0, 2, 3], [0, 1, 0], [1, 5, 2], 2⟩, 4, 4⟩ (by simp [sizeMax]) (by simp [sizeMax]) (by decide +kernel) (by decide +kernel)
    (by decide +kernel)
  have e : csrLookup (⟨[0, 2, 3], [0, 1, 0], [1, 5, 2], 2⟩ : CsrData Int) 1 0 = .ok (some 2) := by decide +kernel
  rw [show o = some 2 from (Out.ok.inj (e ▸ h1)).symm] at h2
  exact absurd h2 (by decide +kernel)

/-- The second row reads the new element of the first one as its own. -/
example : twoRows.read ⟨⟨[0, 2, 3], [0, 1, 0], [1, 5, 2], 2⟩, 4, 4⟩ ⟨1, 1, 2⟩ 1 = .ok 5 := by decide +kernel

/-- The hypotheses of the theorems are met. -/
example : RowView.make twoRows.data 1 = .ok ⟨1, 1, 2⟩ ∧ csrLookup twoRows.data 1 0 = .ok (some 2) ∧
    csrLookup twoRows.data 1 3 = .ok none ∧ CsrFits twoRows ∧ twoRows.data.cols.length < twoRows.cols ∧
    twoRows.data.vals.length < twoRows.vals := by
  refine ⟨by decide +kernel, by decide +kernel, by decide +kernel, ?_, ?_, ?_⟩ <;> simp [CsrFits, twoRows]

end Disa.Props
