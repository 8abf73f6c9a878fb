import Verif.Props.CsrRow
import Verif.Sparse.Built
import Verif.Sparse.Visit

/-!
# Properties C145 and C146: going through a sparse matrix with its iterators
-/

namespace Disa.Props

open Disa Spec Sparse

variable {α : Type}

/-! ### C145: visiting -/

/-- The elements of a row with their row index. -/
def tag (i : Nat) (r : List (Nat × α)) : List (Nat × Nat × α) := r.map fun e => (i, e.1, e.2)

/-- All elements in the order of the rows. -/
def tagged (L : Rows α) : List (Nat × Nat × α) := (List.range L.length).flatMap fun i => tag i (row L i)

theorem visitRow_loop {m : Sparse α} {L : Rows α} (h : m.Rep L) {i : Nat} (hi : i < L.length) (fuel : Nat) :
    ∀ (k : Nat), k ≤ L[i].length → L[i].length - k ≤ fuel → ∀ acc : List (Nat × Nat × α),
    whileFuel (fun st : Iter × List (Nat × Nat × α) => st.1 != (i, psum L (i + 1))) (fun st => do
      let c ← m.colAt st.1
      let x ← m.valAt st.1
      pure (elemNext st.1, st.2 ++ [(st.1.1, c, x)])) fuel ((i, psum L i + k), acc) =
        .ok ((i, psum L (i + 1)), acc ++ tag i (L[i].drop k)) := by
  have hp := psum_succ L hi
  induction fuel with
  | zero =>
    intro k hk hf acc
    obtain rfl : k = L[i].length := by omega
    rw [← hp]
    simp [whileFuel, tag]
  | succ fuel ih =>
    intro k hk hf acc
    by_cases hkl : k = L[i].length
    · subst hkl
      rw [← hp]
      simp [whileFuel, tag]
    · have hlt : k < L[i].length := by omega
      have hne : ((i, psum L i + k) != (i, psum L (i + 1))) = true := by simp; omega
      unfold whileFuel
      simp only [hne, if_true, h.colAt hi hlt, h.valAt hi hlt, Out.ok_bind, Out.pure_eq]
      have := ih (k + 1) hlt (by omega) (acc ++ [(i, L[i][k].1, L[i][k].2)])
      simp only [Out.pure_eq] at this
      rw [show elemNext (i, psum L i + k) = (i, psum L i + (k + 1)) from rfl, this, List.drop_eq_getElem_cons hlt]
      simp only [tag, List.map_cons, List.append_assoc, List.singleton_append]

theorem visitRow_ok {m : Sparse α} {L : Rows α} (h : m.Rep L) {i : Nat} (hi : i < L.length) {fuel : Nat}
    (hf : L[i].length ≤ fuel) : visitRow m i fuel = .ok (tag i (row L i)) := by
  have := visitRow_loop h hi fuel 0 (Nat.zero_le _) (by omega) []
  unfold visitRow
  simp only [h.rowBegin hi, h.rowEnd hi, Out.ok_bind]
  simp only [Nat.add_zero] at this
  rw [this, row_of_lt hi]
  simp

theorem visitRowBack_loop {m : Sparse α} {L : Rows α} (h : m.Rep L) {i : Nat} (hi : i < L.length) (fuel : Nat) :
    ∀ (k : Nat), k ≤ L[i].length → k ≤ fuel → ∀ acc : List (Nat × Nat × α),
    whileFuel (fun st : Iter × List (Nat × Nat × α) => st.1 != (i, psum L i)) (fun st => do
      let it ← elemPrev st.1
      let c ← m.colAt it
      let x ← m.valAt it
      pure (it, st.2 ++ [(it.1, c, x)])) fuel ((i, psum L i + k), acc) =
        .ok ((i, psum L i), acc ++ (tag i (L[i].take k)).reverse) := by
  induction fuel with
  | zero =>
    intro k hk hf acc
    obtain rfl : k = 0 := by omega
    simp [whileFuel, tag]
  | succ fuel ih =>
    intro k hk hf acc
    match k, hk, hf with
    | 0, _, _ => simp [whileFuel, tag]
    | k + 1, hk, hf =>
      have hlt : k < L[i].length := by omega
      have hne : ((i, psum L i + (k + 1)) != (i, psum L i)) = true := by simp
      have hprev : elemPrev (i, psum L i + (k + 1)) = .ok (i, psum L i + k) := by
        unfold elemPrev
        rw [if_neg (show ¬ psum L i + (k + 1) = 0 by omega)]
        rfl
      unfold whileFuel
      simp only [hne, if_true, hprev, h.colAt hi hlt, h.valAt hi hlt, Out.ok_bind, Out.pure_eq]
      have := ih k (by omega) (by omega) (acc ++ [(i, L[i][k].1, L[i][k].2)])
      simp only [Out.pure_eq] at this
      rw [this, List.take_succ_eq_append_getElem hlt]
      simp only [tag, List.map_append, List.map_cons, List.map_nil, List.reverse_append, List.reverse_singleton,
        List.append_assoc]

theorem visitRowBack_ok {m : Sparse α} {L : Rows α} (h : m.Rep L) {i : Nat} (hi : i < L.length) {fuel : Nat}
    (hf : L[i].length ≤ fuel) : visitRowBack m i fuel = .ok (tag i (row L i)).reverse := by
  have := visitRowBack_loop h hi fuel L[i].length le_rfl hf []
  unfold visitRowBack
  simp only [h.rowBegin hi, h.rowEnd hi, Out.ok_bind]
  rw [← psum_succ L hi] at this
  rw [this, row_of_lt hi]
  simp

theorem row_le {L : Rows α} {i : Nat} (hi : i < L.length) : L[i].length ≤ L.flatten.length := by
  have h1 := psum_succ L hi
  have h2 := psum_le L (i + 1)
  omega

theorem wrap_succ {n k : Nat} (h : k < n) (hn : n < sizeMax) : wrap (k + 1) = k + 1 := by
  unfold wrap
  unfold sizeMax at hn
  exact Nat.mod_eq_of_lt (by omega)

theorem visitAll_loop {m : Sparse α} {L : Rows α} (h : m.Rep L) (big : Nat) (hb : L.flatten.length ≤ big) (fuel : Nat) :
    ∀ (k : Nat), k ≤ L.length → L.length - k ≤ fuel → ∀ acc : List (Nat × Nat × α),
    whileFuel (fun st : Nat × List (Nat × Nat × α) => st.1 != L.length) (fun st => do
      let es ← visitRow m st.1 big
      pure (rowNext st.1, st.2 ++ es)) fuel (k, acc) =
        .ok (L.length, acc ++ ((List.range L.length).drop k).flatMap fun i => tag i (row L i)) := by
  induction fuel with
  | zero =>
    intro k hk hf acc
    obtain rfl : k = L.length := by omega
    rw [List.drop_of_length_le (by simp)]
    simp [whileFuel]
  | succ fuel ih =>
    intro k hk hf acc
    by_cases hkl : k = L.length
    · subst hkl
      rw [List.drop_of_length_le (by simp)]
      simp [whileFuel]
    · have hlt : k < L.length := by omega
      have hne : (k != L.length) = true := by simpa using hkl
      unfold whileFuel
      simp only [hne, if_true, visitRow_ok h hlt ((row_le hlt).trans hb), Out.ok_bind, Out.pure_eq]
      have := ih (k + 1) hlt (by omega) (acc ++ tag k (row L k))
      simp only [Out.pure_eq] at this
      have hd : (List.range L.length).drop k = k :: (List.range L.length).drop (k + 1) := by
        rw [List.drop_eq_getElem_cons (by simpa using hlt), List.getElem_range]
      rw [show rowNext k = k + 1 from wrap_succ hlt h.small, this, hd]
      simp

theorem visitAll_ok {m : Sparse α} {L : Rows α} (h : m.Rep L) {fuel : Nat} (hf : L.length + L.flatten.length ≤ fuel) :
    visitAll m fuel = .ok (tagged L) := by
  have := visitAll_loop h fuel (by omega) fuel 0 (Nat.zero_le _) (by omega) []
  unfold visitAll rowsBegin rowsEnd
  simp only [h.sizeRow]
  rw [this]
  simp [tagged]

theorem visitAllBack_loop {m : Sparse α} {L : Rows α} (h : m.Rep L) (big : Nat) (hb : L.flatten.length ≤ big) (fuel : Nat) :
    ∀ (k : Nat), k ≤ L.length → k ≤ fuel → ∀ acc : List (Nat × Nat × α),
    whileFuel (fun st : Nat × List (Nat × Nat × α) => st.1 != 0) (fun st => do
      let es ← visitRowBack m (rowPrev st.1) big
      pure (rowPrev st.1, st.2 ++ es)) fuel (k, acc) =
        .ok (0, acc ++ ((List.range k).flatMap fun i => tag i (row L i)).reverse) := by
  induction fuel with
  | zero =>
    intro k hk hf acc
    obtain rfl : k = 0 := by omega
    simp [whileFuel]
  | succ fuel ih =>
    intro k hk hf acc
    match k, hk, hf with
    | 0, _, _ => simp [whileFuel]
    | k + 1, hk, hf =>
      have hlt : k < L.length := by omega
      have hs := h.small
      have hprev : rowPrev (k + 1) = k := by
        unfold rowPrev
        rw [usub_of_le (by omega)]
        rfl
      unfold whileFuel
      have hne : (k + 1 != 0) = true := by simp
      simp only [hne, if_true, hprev, visitRowBack_ok h hlt ((row_le hlt).trans hb), Out.ok_bind, Out.pure_eq]
      have := ih k (by omega) (by omega) (acc ++ (tag k (row L k)).reverse)
      simp only [Out.pure_eq] at this
      rw [this, List.range_succ, List.flatMap_append, List.reverse_append]
      simp

theorem visitAllBack_ok {m : Sparse α} {L : Rows α} (h : m.Rep L) {fuel : Nat} (hf : L.length + L.flatten.length ≤ fuel) :
    visitAllBack m fuel = .ok (tagged L).reverse := by
  have := visitAllBack_loop h fuel (by omega) fuel L.length le_rfl (by omega) []
  unfold visitAllBack rowsBegin rowsEnd
  simp only [h.sizeRow]
  rw [this]
  simp [tagged]

theorem mem_tagged {L : Rows α} {i j : Nat} {x : α} : (i, j, x) ∈ tagged L ↔ i < L.length ∧ (j, x) ∈ row L i := by
  unfold tagged tag
  simp only [List.mem_flatMap, List.mem_range, List.mem_map, Prod.mk.injEq]
  constructor
  · rintro ⟨a, h1, e, h2, rfl, rfl, rfl⟩
    exact ⟨h1, h2⟩
  · rintro ⟨h1, h2⟩
    exact ⟨i, h1, (j, x), h2, rfl, rfl, rfl⟩

theorem tagged_length (L : Rows α) : (tagged L).length = L.flatten.length := by
  have : ∀ k, k ≤ L.length → ((List.range k).flatMap fun i => tag i (row L i)).length = psum L k := by
    intro k hk
    induction k with
    | zero => simp
    | succ k ih =>
      rw [List.range_succ, List.flatMap_append, List.length_append, ih (by omega), psum_succ L (by omega : k < L.length)]
      simp [tag, row_of_lt (show k < L.length by omega)]
  rw [tagged, this _ le_rfl, psum_length]

/-- The order in which elements are visited: by rows, in a row by columns. -/
def Before (a b : Nat × Nat × α) : Prop := a.1 < b.1 ∨ (a.1 = b.1 ∧ a.2.1 < b.2.1)

theorem tagged_sorted {L : Rows α} (hs : Sorted L) : (tagged L).Pairwise Before := by
  unfold tagged
  rw [List.pairwise_flatMap]
  constructor
  · intro i _
    have := hs i
    unfold tag
    unfold keys at this
    rw [List.pairwise_map] at this ⊢
    exact this.imp fun h => Or.inr ⟨rfl, h⟩
  · refine List.pairwise_lt_range.imp ?_
    intro a b hab x hx y hy
    unfold tag at hx hy
    obtain ⟨_, _, rfl⟩ := List.mem_map.mp hx
    obtain ⟨_, _, rfl⟩ := List.mem_map.mp hy
    exact Or.inl hab

variable [Zero α] [Add α] [Neg α] [Mul α] [Div α]

/-- C145: going through all rows from `begin` to `end` and through the elements of each row visits each stored element once,
by rows and in a row by columns, and nothing else; going backwards visits them in reverse. -/
theorem c145_visit (z : Bool) (m : Sparse α) (hm : Built z m) :
    ∃ es : List (Nat × Nat × α),
      (∀ fuel, m.sizeRow + m.sizeNonZero ≤ fuel → visitAll m fuel = .ok es ∧ visitAllBack m fuel = .ok es.reverse) ∧
      es.Pairwise (fun a b => a.1 < b.1 ∨ (a.1 = b.1 ∧ a.2.1 < b.2.1)) ∧ es.length = m.sizeNonZero ∧
      ∀ i j x, (i, j, x) ∈ es ↔ i < m.sizeRow ∧ lookup m i j = .ok (some x) := by
  obtain ⟨L, h1, h2, _⟩ := inv_built hm
  have hl := h1.lengths.1
  refine ⟨tagged L, ?_, tagged_sorted h2, ?_, ?_⟩
  · intro fuel hf
    unfold Sparse.sizeNonZero at hf
    rw [h1.sizeRow, hl] at hf
    exact ⟨visitAll_ok h1 hf, visitAllBack_ok h1 hf⟩
  · rw [tagged_length]
    exact hl.symm
  · intro i j x
    rw [mem_tagged, h1.sizeRow]
    refine and_congr_right fun hi => ?_
    rw [lookup_ok h1 hi, Out.ok.injEq]
    unfold entry
    rw [lookup_eq_some (h2 i)]

/-- C145, one row: both directions, the count as the difference of the iterators, and the position of `find`. -/
theorem c145_row (z : Bool) (m : Sparse α) (hm : Built z m) (i : Nat) (hi : i < m.sizeRow) :
    ∃ (es : List (Nat × Nat × α)) (s e : Iter), m.rowBegin i = .ok s ∧ m.rowEnd i = .ok e ∧
      elemDistance e s = es.length ∧ (∀ x ∈ es, x.1 = i) ∧ elements m i = .ok (es.map (·.2)) ∧
      (∀ fuel, es.length ≤ fuel → visitRow m i fuel = .ok es ∧ visitRowBack m i fuel = .ok es.reverse) ∧
      ∀ k (hk : k < es.length), ∃ it, m.find i es[k].2.1 = .ok it ∧ elemDistance it s = k := by
  obtain ⟨L, h1, h2, _⟩ := inv_built hm
  rw [h1.sizeRow] at hi
  have hp := psum_succ L hi
  have hlen : (tag i (row L i)).length = L[i].length := by simp [tag, row_of_lt hi]
  refine ⟨tag i (row L i), _, _, h1.rowBegin hi, h1.rowEnd hi, ?_, ?_, ?_, ?_, ?_⟩
  · rw [hlen]
    unfold elemDistance
    simp only [hp]
    omega
  · intro x hx
    unfold tag at hx
    obtain ⟨_, _, rfl⟩ := List.mem_map.mp hx
    rfl
  · rw [Sparse.elements_ok h1 hi]
    simp [tag]
  · intro fuel hf
    rw [hlen] at hf
    exact ⟨visitRow_ok h1 hi hf, visitRowBack_ok h1 hi hf⟩
  · intro k hk
    have hk' : k < L[i].length := by rw [← hlen]; exact hk
    have hkey : (tag i (row L i))[k].2.1 = (keys L[i])[k]'(by simpa [keys] using hk') := by
      simp [tag, keys, row_of_lt hi]
    have hnd : (keys L[i]).Nodup := by
      have := h2 i
      rw [row_of_lt hi] at this
      exact this.imp fun h => by omega
    refine ⟨(i, psum L i + k), ?_, ?_⟩
    · rw [hkey, h1.find hi, hnd.idxOf_getElem]
    · unfold elemDistance
      simp only
      omega

example : Built (α := Int) true ⟨[0, 2, 2, 3], [1, 3, 0], [6, 5, 7], 4⟩ ∧
    visitAll (⟨[0, 2, 2, 3], [1, 3, 0], [6, 5, 7], 4⟩ : Sparse Int) 6 = .ok [(0, 1, 6), (0, 3, 5), (2, 0, 7)] := by
  refine ⟨Built.ofLists (nz := [0, 2, 2, 3]) (ix := [3, 1, 0]) (vs := [(5 : Int), 6, 7]) (c := 4) (by decide) (by decide) ?_, ?_⟩
  · decide +kernel
  · decide +kernel

/-! ### C146: assigning -/

/-- The matrix with the values of the rows `L`. -/
def withRows (m : Sparse α) (L : Rows α) : Sparse α := { m with vals := L.flatten.map (·.2) }

omit [Zero α] [Add α] [Neg α] [Mul α] [Div α] in
theorem setAt_withRows {m m' : Sparse α} {L L' : Rows α} {it : Iter} {v : α} (h : (withRows m L).setAt it v = .ok m')
    (hR : m'.Rep L') : m' = withRows m L' := by
  unfold Sparse.setAt at h
  cases hw : wr (withRows m L).vals it.2 v with
  | ok w =>
    rw [hw] at h
    simp only [Out.ok_bind, Out.pure_eq, Out.ok.injEq] at h
    subst h
    have := hR.vals
    simp only at this
    simp [withRows, this]
  | _ => rw [hw] at h; exact absurd h (by simp [bind, Out.bind])

omit [Zero α] [Add α] [Neg α] [Mul α] [Div α] in
theorem withRows_self {m : Sparse α} {L : Rows α} (h : m.Rep L) : withRows m L = m := by
  unfold withRows
  rw [← h.vals]

omit [Zero α] [Add α] [Neg α] [Mul α] [Div α] in
theorem updateRow_loop (f : Nat → Nat → α → α) {L : Rows α} {i : Nat} (hi : i < L.length) (m : Sparse α) (fuel : Nat) :
    ∀ (k : Nat), k ≤ L[i].length → L[i].length - k ≤ fuel →
    (withRows m (L.set i (partly (f i) L[i] k))).Rep (L.set i (partly (f i) L[i] k)) →
    whileFuel (fun st : Iter × Sparse α => st.1 != (i, psum L (i + 1))) (fun st => do
      let c ← st.2.colAt st.1
      let x ← st.2.valAt st.1
      let m ← st.2.setAt st.1 (f st.1.1 c x)
      pure (elemNext st.1, m)) fuel ((i, psum L i + k), withRows m (L.set i (partly (f i) L[i] k))) =
        .ok ((i, psum L (i + 1)), withRows m (L.set i (L[i].map fun e => (e.1, f i e.1 e.2)))) ∧
      (withRows m (L.set i (L[i].map fun e => (e.1, f i e.1 e.2)))).Rep (L.set i (L[i].map fun e => (e.1, f i e.1 e.2))) := by
  have hp := psum_succ L hi
  have hend : partly (f i) L[i] L[i].length = L[i].map fun e => (e.1, f i e.1 e.2) := by simp [partly]
  induction fuel with
  | zero =>
    intro k hk hf hR
    obtain rfl : k = L[i].length := by omega
    rw [← hp, ← hend]
    exact ⟨by simp [whileFuel], hR⟩
  | succ fuel ih =>
    intro k hk hf hR
    by_cases hkl : k = L[i].length
    · subst hkl
      rw [← hp, ← hend]
      exact ⟨by simp [whileFuel], hR⟩
    · have hlt : k < L[i].length := by omega
      have hi' : i < (L.set i (partly (f i) L[i] k)).length := by simpa using hi
      have hrow : (L.set i (partly (f i) L[i] k))[i] = partly (f i) L[i] k := by simp
      have hk' : k < (L.set i (partly (f i) L[i] k))[i].length := by rw [hrow, partly_length]; exact hlt
      have hps : psum (L.set i (partly (f i) L[i] k)) i = psum L i := by rw [psum_set L hi, if_pos le_rfl]
      have hget : (L.set i (partly (f i) L[i] k))[i][k] = L[i][k] := by
        simp only [hrow]
        exact partly_get (f i) _ hlt _
      have hc := hR.colAt (a := i) hi' hk'
      have hv := hR.valAt (a := i) hi' hk'
      obtain ⟨m1, h1, h2, h3⟩ := hR.setAt (a := i) hi' hk' (f i L[i][k].1 L[i][k].2)
      rw [hps, hget] at hc hv
      rw [hps] at h1
      rw [hget, hrow, List.set_set, partly_set (f i) _ hlt] at h3
      have he := setAt_withRows h1 h3
      rw [he] at h1 h3
      have hne : ((i, psum L i + k) != (i, psum L (i + 1))) = true := by simp; omega
      obtain ⟨g1, g2⟩ := ih (k + 1) hlt (by omega) h3
      refine ⟨?_, g2⟩
      unfold whileFuel
      simp only [hne, if_true, hc, hv, h1, Out.ok_bind]
      exact g1

omit [Zero α] [Add α] [Neg α] [Mul α] [Div α] in
theorem updateRow_ok (f : Nat → Nat → α → α) {m : Sparse α} {L : Rows α} (h : m.Rep L) {i : Nat} (hi : i < L.length)
    {fuel : Nat} (hf : L[i].length ≤ fuel) :
    updateRow f i fuel m = .ok (withRows m (L.set i (L[i].map fun e => (e.1, f i e.1 e.2)))) ∧
      (withRows m (L.set i (L[i].map fun e => (e.1, f i e.1 e.2)))).Rep (L.set i (L[i].map fun e => (e.1, f i e.1 e.2))) := by
  have h0 : L.set i (partly (f i) L[i] 0) = L := by simp [partly]
  have hR : (withRows m (L.set i (partly (f i) L[i] 0))).Rep (L.set i (partly (f i) L[i] 0)) := by
    rw [h0, withRows_self h]
    exact h
  obtain ⟨g1, g2⟩ := updateRow_loop f hi m fuel 0 (Nat.zero_le _) (by omega) hR
  refine ⟨?_, g2⟩
  unfold updateRow
  simp only [h.rowBegin hi, h.rowEnd hi, Out.ok_bind]
  rw [h0, withRows_self h] at g1
  simp only [Nat.add_zero] at g1
  rw [g1]
  rfl

/-- The rows after the first `k` of them were assigned to. -/
def partRows (f : Nat → Nat → α → α) (L : Rows α) (k : Nat) : Rows α :=
  L.mapIdx fun i r => if i < k then r.map fun e => (e.1, f i e.1 e.2) else r

omit [Zero α] [Add α] [Neg α] [Mul α] [Div α] in
theorem partRows_get (f : Nat → Nat → α → α) (L : Rows α) (k i : Nat) :
    row (partRows f L k) i = if i < k then (row L i).map (fun e => (e.1, f i e.1 e.2)) else row L i := by
  unfold partRows row
  rw [List.getElem?_mapIdx]
  cases L[i]? with
  | none => split <;> rfl
  | some r => rfl

omit [Zero α] [Add α] [Neg α] [Mul α] [Div α] in
theorem partRows_getElem (f : Nat → Nat → α → α) (L : Rows α) {k i : Nat} (h : i < (partRows f L k).length) :
    (partRows f L k)[i] = if i < k then (L[i]'(by simpa [partRows] using h)).map (fun e => (e.1, f i e.1 e.2))
      else L[i]'(by simpa [partRows] using h) := by
  simp [partRows]

omit [Zero α] [Add α] [Neg α] [Mul α] [Div α] in
theorem partRows_set (f : Nat → Nat → α → α) (L : Rows α) {k : Nat} (hk : k < (partRows f L k).length) :
    (partRows f L k).set k ((partRows f L k)[k].map fun e => (e.1, f k e.1 e.2)) = partRows f L (k + 1) := by
  apply List.ext_getElem
  · simp [partRows]
  · intro i h1 h2
    rw [List.getElem_set]
    by_cases hik : k = i
    · subst hik
      rw [if_pos rfl, partRows_getElem, partRows_getElem, if_neg (by omega), if_pos (by omega)]
    · rw [if_neg hik]
      refine (partRows_getElem f L _).trans (Eq.trans ?_ (partRows_getElem f L h2).symm)
      by_cases h : i < k
      · rw [if_pos h, if_pos (by omega)]
      · rw [if_neg h, if_neg (by omega)]

omit [Zero α] [Add α] [Neg α] [Mul α] [Div α] in
theorem partRows_flat (f : Nat → Nat → α → α) (L : Rows α) (k : Nat) : (partRows f L k).flatten.length = L.flatten.length := by
  rw [List.length_flatten, List.length_flatten]
  congr 1
  apply List.ext_getElem
  · simp [partRows]
  · intro i h1 h2
    simp only [partRows, List.getElem_map, List.getElem_mapIdx]
    split <;> simp

omit [Zero α] [Add α] [Neg α] [Mul α] [Div α] in
theorem updateAll_loop (f : Nat → Nat → α → α) {L : Rows α} (hs : L.length < sizeMax) (m : Sparse α) (big : Nat)
    (hb : L.flatten.length ≤ big) (fuel : Nat) :
    ∀ (k : Nat), k ≤ L.length → L.length - k ≤ fuel → (withRows m (partRows f L k)).Rep (partRows f L k) →
    whileFuel (fun st : Nat × Sparse α => st.1 != L.length) (fun st => do
      let m ← updateRow f st.1 big st.2
      pure (rowNext st.1, m)) fuel (k, withRows m (partRows f L k)) =
        .ok (L.length, withRows m (partRows f L L.length)) ∧
      (withRows m (partRows f L L.length)).Rep (partRows f L L.length) := by
  induction fuel with
  | zero =>
    intro k hk hf hR
    obtain rfl : k = L.length := by omega
    exact ⟨by simp [whileFuel], hR⟩
  | succ fuel ih =>
    intro k hk hf hR
    by_cases hkl : k = L.length
    · subst hkl
      exact ⟨by simp [whileFuel], hR⟩
    · have hlt : k < L.length := by omega
      have hlt' : k < (partRows f L k).length := by simpa [partRows] using hlt
      have hne : (k != L.length) = true := by simpa using hkl
      obtain ⟨e1, e2⟩ := updateRow_ok f hR hlt' (fuel := big) ((row_le hlt').trans (by rw [partRows_flat]; exact hb))
      rw [partRows_set f L hlt'] at e1 e2
      have e3 : withRows (withRows m (partRows f L k)) (partRows f L (k + 1)) = withRows m (partRows f L (k + 1)) := rfl
      rw [e3] at e1 e2
      obtain ⟨g1, g2⟩ := ih (k + 1) hlt (by omega) e2
      refine ⟨?_, g2⟩
      unfold whileFuel
      simp only [hne, if_true, e1, Out.ok_bind, Out.pure_eq, show rowNext k = k + 1 from wrap_succ hlt hs]
      exact g1

omit [Zero α] [Add α] [Neg α] [Mul α] [Div α] in
theorem updateAll_ok (f : Nat → Nat → α → α) {m : Sparse α} {L : Rows α} (h : m.Rep L) {fuel : Nat}
    (hf : L.length + L.flatten.length ≤ fuel) :
    updateAll f fuel m = .ok (withRows m (partRows f L L.length)) ∧
      (withRows m (partRows f L L.length)).Rep (partRows f L L.length) := by
  have h0 : partRows f L 0 = L := by
    unfold partRows
    apply List.ext_getElem <;> simp
  obtain ⟨g1, g2⟩ := updateAll_loop f h.small m fuel (by omega) fuel 0 (Nat.zero_le _) (by omega)
    (by rw [h0, withRows_self h]; exact h)
  refine ⟨?_, g2⟩
  unfold updateAll rowsBegin rowsEnd
  simp only [h.sizeRow]
  rw [h0, withRows_self h] at g1
  rw [g1]
  rfl

/-- C146: assigning to the elements through the iterators changes the value of each stored element as asked, and no other
element and no size. -/
theorem c146_update (f : Nat → Nat → α → α) (z : Bool) (m : Sparse α) (hm : Built z m) :
    ∃ m', (∀ fuel, m.sizeRow + m.sizeNonZero ≤ fuel → updateAll f fuel m = .ok m') ∧
      m'.sizeRow = m.sizeRow ∧ m'.colSize = m.colSize ∧ m'.sizeNonZero = m.sizeNonZero ∧
      ∀ i j, i < m.sizeRow → ∃ o, lookup m i j = .ok o ∧ lookup m' i j = .ok (o.map (f i j)) := by
  obtain ⟨L, h1, h2, _⟩ := inv_built hm
  have hl := h1.lengths.1
  have hR := (updateAll_ok f h1 (le_refl _)).2
  refine ⟨withRows m (partRows f L L.length), ?_, rfl, rfl, rfl, ?_⟩
  · intro fuel hf
    unfold Sparse.sizeNonZero at hf
    rw [h1.sizeRow, hl] at hf
    exact (updateAll_ok f h1 hf).1
  · intro i j hi
    rw [h1.sizeRow] at hi
    refine ⟨_, lookup_ok h1 hi j, ?_⟩
    rw [lookup_ok hR (by simpa [partRows] using hi), Out.ok.injEq]
    unfold entry
    rw [partRows_get, if_pos hi]
    exact lookup_map_key (f i) _ _

/-- C146, one row: the elements of the other rows stay. -/
theorem c146_row (f : Nat → Nat → α → α) (z : Bool) (m : Sparse α) (hm : Built z m) (i : Nat) (hi : i < m.sizeRow) :
    ∃ m', (∀ fuel, m.sizeNonZero ≤ fuel → updateRow f i fuel m = .ok m') ∧
      m'.sizeRow = m.sizeRow ∧ m'.colSize = m.colSize ∧ m'.sizeNonZero = m.sizeNonZero ∧
      ∀ a b, a < m.sizeRow → ∃ o, lookup m a b = .ok o ∧ lookup m' a b = .ok (if a = i then o.map (f i b) else o) := by
  obtain ⟨L, h1, h2, _⟩ := inv_built hm
  have hl := h1.lengths.1
  rw [h1.sizeRow] at hi
  have hR := (updateRow_ok f h1 hi (le_refl _)).2
  refine ⟨withRows m (L.set i (L[i].map fun e => (e.1, f i e.1 e.2))), ?_, rfl, rfl, rfl, ?_⟩
  · intro fuel hf
    unfold Sparse.sizeNonZero at hf
    rw [hl] at hf
    exact (updateRow_ok f h1 hi ((row_le hi).trans hf)).1
  · intro a b ha
    rw [h1.sizeRow] at ha
    refine ⟨_, lookup_ok h1 ha b, ?_⟩
    rw [lookup_ok hR (by simpa using ha), Out.ok.injEq]
    unfold entry
    by_cases hai : a = i
    · subst hai
      rw [if_pos rfl, row_of_lt (by simpa using ha), row_of_lt ha, List.getElem_set_self]
      exact lookup_map_key (f a) _ _
    · rw [if_neg hai]
      unfold row
      rw [List.getElem?_set_ne (Ne.symm hai)]

/-- C146: multiplying each element by `a` through the iterators is `*= a`, dividing it is `/= a`. -/
theorem c146_scale (a : α) (z : Bool) (m : Sparse α) (hm : Built z m) (fuel : Nat) (hf : m.sizeRow + m.sizeNonZero ≤ fuel) :
    updateAll (fun _ _ x => x * a) fuel m = .ok (m.scale a) ∧ updateAll (fun _ _ x => x / a) fuel m = .ok (m.unscale a) := by
  obtain ⟨L, h1, h2, _⟩ := inv_built hm
  unfold Sparse.sizeNonZero at hf
  rw [h1.sizeRow, h1.lengths.1] at hf
  have key : ∀ g : α → α, withRows m (partRows (fun _ _ x => g x) L L.length) = { m with vals := m.vals.map g } := by
    intro g
    have : partRows (fun _ _ x => g x) L L.length = L.map fun r => r.map fun e => (e.1, g e.2) := by
      unfold partRows
      apply List.ext_getElem
      · simp
      · intro i hi1 hi2
        have : i < L.length := by simpa using hi2
        simp [this]
    rw [this]
    unfold withRows
    rw [h1.vals]
    congr 1
    simp [← List.map_flatten, Function.comp_def]
  exact ⟨by rw [(updateAll_ok _ h1 hf).1, key]; rfl, by rw [(updateAll_ok _ h1 hf).1, key]; rfl⟩

example : updateAll (fun i j (x : Int) => x + 10 * i + j) 6 (⟨[0, 2, 2, 3], [1, 3, 0], [6, 5, 7], 4⟩ : Sparse Int) =
    .ok ⟨[0, 2, 2, 3], [1, 3, 0], [7, 8, 27], 4⟩ := by decide +kernel

end Disa.Props
