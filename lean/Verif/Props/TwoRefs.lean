import Verif.Sparse.TwoRefs
import Verif.Props.SparseCapacity
import Verif.Props.OwnIndex

/-!
# Property C152: references to two elements of a sparse matrix
-/

namespace Disa.Props

open Disa Spec Sparse

variable {α : Type}

/-- The position `(i, j)` comes before `(k, l)` in the order of the rows and, inside of a row, of the columns. -/
def Ahead (i j k l : Nat) : Prop := i < k ∨ (i = k ∧ j < l)

/-- C152 as stated in the properties file: with room for two more elements, `matrix[i][j]` and `matrix[k][l]` can be used
together. -/
def C152 : Prop := ∀ (a b : Alloc) (c : SparseRoom Int) (i j k l : Nat), SparseHeld a b c → i < c.matrix.sizeRow →
  k < c.matrix.sizeRow → j < sizeMax → l < sizeMax → c.matrix.sizeNonZero + 2 ≤ c.vals →
  ∃ c' p q, c.refs a b i j k l = .ok (c', p, q) ∧ At c'.matrix i j p ∧ At c'.matrix k l q

theorem pos_count {r : List (Nat × α)} (hr : (keys r).Pairwise (· < ·)) (j : Nat) :
    pos j r = (keys r).countP (· < j) := by
  obtain ⟨T, D, h1, h2, h3, h4⟩ := split_row hr j
  rw [← h2, h1]
  simp only [keys, List.map_append, List.countP_append]
  have e1 : (T.map (·.1)).countP (· < j) = T.length := by
    rw [List.countP_eq_length.mpr, List.length_map]
    intro x hx
    obtain ⟨y, hy, rfl⟩ := List.mem_map.mp hx
    simpa using h3 y hy
  have e2 : (D.map (·.1)).countP (· < j) = 0 := by
    rw [List.countP_eq_zero]
    intro x hx
    obtain ⟨y, hy, rfl⟩ := List.mem_map.mp hx
    have := h4 y hy
    simpa using this
  omega

theorem pos_insRow_other {r : List (Nat × α)} (hr : (keys r).Pairwise (· < ·)) {j l : Nat} {v : α} (hl : l ∉ keys r) :
    pos j (insRow l v r) = pos j r + if l < j then 1 else 0 := by
  rw [pos_count (insRow_sorted hr hl), pos_count hr]
  have : (keys (insRow l v r)).countP (· < j) = (l :: keys r).countP (· < j) := by
    apply List.Perm.countP_eq
    unfold insRow insAt keys
    rw [← List.map_cons (f := (·.1)) (a := (l, v))]
    refine List.Perm.map _ ?_
    have := List.perm_middle (a := (l, v)) (l₁ := r.take (pos l r)) (l₂ := r.drop (pos l r))
    rw [List.take_append_drop] at this
    simpa using this
  rw [this, List.countP_cons]
  simp

/-- The position of the element of row `i` and column `j`, if there is one. -/
def flatPos (L : Rows α) (i j : Nat) : Nat := psum L i + pos j (row L i)

theorem flatPos_ins {L : Rows α} (hs : Sorted L) {i j k l : Nat} (v : α) (hk : k < L.length) (hl : l ∉ keys (row L k)) :
    (Ahead k l i j → flatPos (insRows k l v L) i j = flatPos L i j + 1) ∧
    (¬ Ahead k l i j → flatPos (insRows k l v L) i j = flatPos L i j) := by
  have hI : insRows k l v L = L.set k (insRow l v (row L k)) := by
    unfold insRows; rw [if_neg hl, pad_eq L (by omega)]
  have hp := psum_set L hk (insRow l v (row L k)) i
  rw [insRow_length, row_of_lt hk] at hp
  have h1 := psum_succ L hk
  have hrow : pos j (row (insRows k l v L) i) = pos j (row L i) + if k = i ∧ l < j then 1 else 0 := by
    rw [row_insRows]
    by_cases hik : i = k
    · subst hik
      rw [if_pos ⟨rfl, hl⟩, pos_insRow_other (hs i) hl]
      simp
    · rw [if_neg (by tauto), if_neg (by omega)]; rfl
  unfold flatPos Ahead
  rw [hrow, hI, row_of_lt hk, hp]
  constructor
  · rintro (h | ⟨rfl, h⟩)
    · have h2 : psum L (k + 1) ≤ psum L i := psum_mono L h
      rw [if_neg (by omega), if_neg (by omega)]; omega
    · rw [if_pos (Nat.le_refl _), if_pos ⟨rfl, h⟩]; omega
  · intro h
    rw [if_pos (by omega), if_neg (by omega)]; rfl

theorem at_key {m : Sparse α} {L : Rows α} (h : m.Rep L) (hs : Sorted L) {i j : Nat} (hj : j ∈ keys (row L i)) :
    At m i j (i, flatPos L i j) := by
  have hi := lt_of_key hj
  have hr := hs i
  obtain ⟨v, hv⟩ := Option.ne_none_iff_exists'.mp (mem_keys_iff.mp hj)
  refine ⟨⟨v, by rw [lookup_ok h hi]; exact congrArg _ hv⟩, ?_⟩
  rw [h.find hi, Out.ok.injEq, Prod.mk.injEq]
  refine ⟨rfl, ?_⟩
  unfold flatPos
  rw [row_of_lt hi] at hr hj ⊢
  rcases pos_cases hr j with ⟨h1, _⟩ | ⟨_, h1, h2⟩
  · exact absurd hj h1
  · have hk : pos j L[i] < (keys L[i]).length := by simpa using h1
    have h3 : (keys L[i])[pos j L[i]] = j := by rw [List.getElem_map]; exact h2
    have hnd : (keys L[i]).Nodup := hr.imp (fun h => Nat.ne_of_lt h)
    have := hnd.idxOf_getElem _ hk
    rw [h3] at this
    rw [this]

theorem flatPos_lt {L : Rows α} (hs : Sorted L) {i j k l : Nat} (hj : j ∈ keys (row L i)) (hb : Ahead i j k l) :
    flatPos L i j < flatPos L k l := by
  have hi := lt_of_key hj
  have hr := hs i
  rw [row_of_lt hi] at hr hj
  have hin : ∃ h : pos j L[i] < L[i].length, L[i][pos j L[i]].1 = j := by
    rcases pos_cases hr j with ⟨h1, _⟩ | ⟨_, h1⟩
    · exact absurd hj h1
    · exact h1
  obtain ⟨h1, h2⟩ := hin
  unfold flatPos
  rw [row_of_lt hi]
  rcases hb with hb | ⟨rfl, hb⟩
  · have h3 := psum_succ L hi
    have h4 : psum L (i + 1) ≤ psum L k := psum_mono L hb
    omega
  · rw [row_of_lt hi]
    have := pos_gt hr h1 (by rw [h2]; exact hb)
    omega

/-- What a reference to `(i, j)` does to the matrix and its storage. -/
theorem ref_room [Zero α] {a b : Alloc} {c : SparseRoom α} {L : Rows α} (h : SFits c L) {i j : Nat} (hi : i < L.length)
    (hj : j < sizeMax) : ∃ c', c.ref a b i j = .ok (c', (i, flatPos (insRows i j 0 L) i j)) ∧ SFits c' (insRows i j 0 L) ∧
      (j ∈ keys (row L i) → c' = c) ∧
      (j ∉ keys (row L i) → c'.vals = b.fit c.vals L.flatten.length (L.flatten.length + 1)) := by
  have hsm := h.1.small
  obtain ⟨m, w, e1, e2, e3, e4, e5⟩ := h.1.ref h.2.1 hi hj
  have l0 := h.1.lengths
  have l1 := e2.lengths
  have hfl := insRows_flat i j (0 : α) L
  have hf := grown_fits (a := a) (b := b) (new := decide (c.matrix.cols.length < m.cols.length)) h (i := i) e2
    (sorted_insRows h.2.1 i j 0) (insRows_length i j 0 L) (by omega) (by
      rw [l0.1, l1.1]
      by_cases hk : j ∈ keys (row L i) <;> simp only [hk, if_true, if_false] at hfl
      · simp [hfl]
      · simp [hfl])
  refine ⟨_, by simp only [SparseRoom.ref, e1, Out.ok_bind, Out.pure_eq]; rfl, hf, ?_, ?_⟩
  · intro hk
    have hm : m = c.matrix := by
      have hI : insRows i j (0 : α) L = L := by unfold insRows; rw [if_pos hk]
      rw [hI] at e2
      rw [if_pos hk] at e3
      have o1 := e2.off_eq (by rintro rfl; simp at hi)
      have o0 := h.1.off_eq (by rintro rfl; simp at hi)
      have c1 := e2.cols
      have c0 := h.1.cols
      have v1 := e2.vals
      have v0 := h.1.vals
      cases m
      cases hc : c.matrix
      rw [hc] at o0 c0 v0 e3
      simp only at *
      rw [o1, o0, c1, c0, v1, v0, e3]
    rw [hm]
    simp only [SparseRoom.grown, Nat.lt_irrefl, decide_false, Bool.false_eq_true, if_false, h.1.sizeRow]
    rw [if_neg (by omega)]
  · intro hk
    rw [if_neg hk] at hfl
    simp only [SparseRoom.grown]
    rw [if_pos (decide_eq_true (by omega)), l0.2]

theorem key_ins_self [Zero α] {L : Rows α} {i j : Nat} : j ∈ keys (row (insRows i j (0 : α) L) i) := by
  by_cases hk : j ∈ keys (row L i)
  · unfold insRows; rwa [if_pos hk]
  · rw [row_insRows, if_pos ⟨rfl, hk⟩]
    unfold insRow insAt keys
    simp

theorem key_ins [Zero α] {L : Rows α} {i j k l : Nat} (h : j ∈ keys (row L i)) :
    j ∈ keys (row (insRows k l (0 : α) L) i) := by
  rw [row_insRows]
  split
  · rename_i hc
    obtain ⟨rfl, hc⟩ := hc
    obtain ⟨x, hx, hxj⟩ := List.mem_map.mp h
    exact List.mem_map.mpr ⟨x, mem_insRow.mpr (.inr hx), hxj⟩
  · exact h

theorem key_ins_iff [Zero α] {L : Rows α} {i j k l : Nat} :
    j ∈ keys (row (insRows k l (0 : α) L) i) ↔ (i = k ∧ j = l) ∨ j ∈ keys (row L i) := by
  constructor
  · intro h
    rw [row_insRows] at h
    split at h
    · rename_i hc
      obtain ⟨rfl, hc⟩ := hc
      obtain ⟨x, hx, hxj⟩ := List.mem_map.mp h
      rcases mem_insRow.mp hx with rfl | hx
      · exact .inl ⟨rfl, hxj.symm⟩
      · exact .inr (List.mem_map.mpr ⟨x, hx, hxj⟩)
    · exact .inr h
  · rintro (⟨rfl, rfl⟩ | h)
    · exact key_ins_self
    · exact key_ins h

theorem ins_getD [Zero α] {L : Rows α} (hs : Sorted L) (k l x y : Nat) :
    (entry (insRows k l (0 : α) L) x y).getD 0 = (entry L x y).getD 0 := by
  rw [entry_insRows hs]
  split
  · rename_i h
    obtain ⟨rfl, rfl, h⟩ := h
    rw [h]; rfl
  · rfl

/-- Both calls, with the positions of the references. -/
theorem refs_room [Zero α] {a b : Alloc} {c : SparseRoom α} {L : Rows α} (h : SFits c L) {i j k l : Nat} (hi : i < L.length)
    (hk : k < L.length) (hj : j < sizeMax) (hl : l < sizeMax)
    (hroom : l ∉ keys (row (insRows i j (0 : α) L) k) → (insRows i j (0 : α) L).flatten.length + 1 ≤ c.vals) :
    ∃ c', c.refs a b i j k l = .ok (c', (i, flatPos (insRows i j 0 L) i j),
        (k, flatPos (insRows k l 0 (insRows i j 0 L)) k l)) ∧ SFits c' (insRows k l 0 (insRows i j 0 L)) := by
  obtain ⟨c1, e1, e2, e3, e4⟩ := ref_room (a := a) (b := b) h hi hj
  have hk' : k < (insRows i j (0 : α) L).length := by rw [insRows_length]; omega
  obtain ⟨c2, f1, f2, f3, f4⟩ := ref_room (a := a) (b := b) e2 hk' hl
  refine ⟨c2, ?_, f2⟩
  unfold SparseRoom.refs
  simp only [e1, f1, Out.ok_bind]
  rw [if_pos]
  · rfl
  · by_cases hin : l ∈ keys (row (insRows i j (0 : α) L) k)
    · rw [f3 hin]
    · have hv : c.vals ≤ c1.vals := by
        by_cases hkj : j ∈ keys (row L i)
        · rw [e3 hkj]
        · rw [e4 hkj]; exact (fit_ge b _ _ _).1
      have := hroom hin
      rw [f4 hin]
      exact fit_eq b (by omega)

section
variable [Zero α] [Add α] [Neg α] [Mul α] [Div α]

/-- C152, the second element is there before or does not come before the first one: with room for two more elements both
references are to their elements, which are zero if they were absent. -/
theorem c152_partial (a b : Alloc) (c : SparseRoom α) (h : SparseHeld a b c) (i j k l : Nat) (hi : i < c.matrix.sizeRow)
    (hk : k < c.matrix.sizeRow) (hj : j < sizeMax) (hl : l < sizeMax) (hroom : c.matrix.sizeNonZero + 2 ≤ c.vals)
    (ho : c.matrix.contains k l = .ok true ∨ ¬ Ahead k l i j) :
    ∃ c' p q, c.refs a b i j k l = .ok (c', p, q) ∧ At c'.matrix i j p ∧ At c'.matrix k l q ∧
      c'.matrix.valAt p = val c.matrix i j ∧ c'.matrix.valAt q = val c.matrix k l := by
  obtain ⟨L, hf⟩ := sparse_held h
  rw [hf.1.sizeRow] at hi hk
  have hs := hf.2.1
  have hl0 := hf.1.lengths
  unfold Sparse.sizeNonZero at hroom
  have hfl := insRows_flat i j (0 : α) L
  have hfl' : (insRows i j (0 : α) L).flatten.length ≤ L.flatten.length + 1 := by rw [hfl]; split <;> omega
  obtain ⟨c', e1, e2⟩ := refs_room (a := a) (b := b) hf hi hk hj hl (fun _ => by omega)
  have hs1 := sorted_insRows hs i j (0 : α)
  have hs2 := sorted_insRows hs1 k l (0 : α)
  have hk' : k < (insRows i j (0 : α) L).length := by rw [insRows_length]; omega
  have hsame : flatPos (insRows i j (0 : α) L) i j = flatPos (insRows k l (0 : α) (insRows i j 0 L)) i j := by
    by_cases hin : l ∈ keys (row (insRows i j (0 : α) L) k)
    · conv_rhs => unfold insRows; rw [if_pos (by exact hin)]
      rfl
    · refine ((flatPos_ins hs1 0 hk' hin).2 ?_).symm
      rcases ho with ho | ho
      · rw [hf.1.contains hk] at ho
        exfalso
        apply hin
        apply key_ins
        rw [row_of_lt hk]
        simpa using ho
      · exact ho
  have ki : j ∈ keys (row (insRows k l (0 : α) (insRows i j 0 L)) i) := key_ins key_ins_self
  have kk : l ∈ keys (row (insRows k l (0 : α) (insRows i j 0 L)) k) := key_ins_self
  have hval : ∀ x y, x < L.length → y ∈ keys (row (insRows k l (0 : α) (insRows i j 0 L)) x) →
      c'.matrix.valAt (x, flatPos (insRows k l (0 : α) (insRows i j 0 L)) x y) = val c.matrix x y := by
    intro x y hx hy
    obtain ⟨v, hv⟩ := Option.ne_none_iff_exists'.mp (mem_keys_iff.mp hy)
    have hx' : x < (insRows k l (0 : α) (insRows i j 0 L)).length := by rw [insRows_length, insRows_length]; omega
    unfold flatPos
    rw [e2.1.valPos hs2 hx' hv]
    unfold val
    rw [lookup_ok hf.1 hx, Out.ok_bind, Out.pure_eq]
    rw [← ins_getD hs i j, ← ins_getD hs1 k l, hv, Option.getD_some]
  rw [hsame] at e1
  exact ⟨c', _, _, e1, at_key e2.1 hs2 ki, at_key e2.1 hs2 kk, hval i j hi ki, hval k l hk kk⟩

/-- C152, otherwise: the second element is made in front of the first one, and the first reference is then to the last
element in front of its own. -/
theorem c152_wrong (a b : Alloc) (c : SparseRoom α) (h : SparseHeld a b c) (i j k l : Nat) (hi : i < c.matrix.sizeRow)
    (hk : k < c.matrix.sizeRow) (hj : j < sizeMax) (hl : l < sizeMax) (hroom : c.matrix.sizeNonZero + 2 ≤ c.vals)
    (hn : c.matrix.contains k l = .ok false) (hb : Ahead k l i j) :
    ∃ c' p q, c.refs a b i j k l = .ok (c', p, q) ∧ At c'.matrix k l q ∧ At c'.matrix i j (i, p.2 + 1) ∧
      ∃ x y, Ahead x y i j ∧ At c'.matrix x y (x, p.2) ∧
        ∀ x' y' it, At c'.matrix x' y' it → Ahead x' y' i j → (x' = x ∧ y' = y) ∨ Ahead x' y' x y := by
  obtain ⟨L, hf⟩ := sparse_held h
  rw [hf.1.sizeRow] at hi hk
  have hs := hf.2.1
  have hl0 := hf.1.lengths
  unfold Sparse.sizeNonZero at hroom
  have hfl := insRows_flat i j (0 : α) L
  have hfl' : (insRows i j (0 : α) L).flatten.length ≤ L.flatten.length + 1 := by rw [hfl]; split <;> omega
  obtain ⟨c', e1, e2⟩ := refs_room (a := a) (b := b) hf hi hk hj hl (fun _ => by omega)
  have hs1 := sorted_insRows hs i j (0 : α)
  have hs2 := sorted_insRows hs1 k l (0 : α)
  have hk' : k < (insRows i j (0 : α) L).length := by rw [insRows_length]; omega
  have hnin : l ∉ keys (row (insRows i j (0 : α) L) k) := by
    rw [key_ins_iff]
    rintro (⟨rfl, rfl⟩ | hc)
    · unfold Ahead at hb; omega
    · rw [hf.1.contains hk, Out.ok.injEq] at hn
      rw [row_of_lt hk] at hc
      simp at hn
      simp only [keys, List.mem_map] at hc
      obtain ⟨z, hz, rfl⟩ := hc
      exact hn z.2 hz
  have hpos := (flatPos_ins hs1 (0 : α) hk' hnin).1 hb
  have ki : j ∈ keys (row (insRows k l (0 : α) (insRows i j 0 L)) i) := key_ins key_ins_self
  have kk : l ∈ keys (row (insRows k l (0 : α) (insRows i j 0 L)) k) := key_ins_self
  generalize hM : insRows k l (0 : α) (insRows i j 0 L) = M at *
  generalize hP : flatPos (insRows i j (0 : α) L) i j = P at *
  have hai := at_key e2.1 hs2 ki
  rw [hpos] at hai
  refine ⟨c', _, _, e1, at_key e2.1 hs2 kk, hai, ?_⟩
  obtain ⟨hiM, t, ht, hit, htj, _⟩ := at_rep e2.1 hai
  have hPM : P < M.flatten.length := by
    have := psum_succ M hiM
    have := psum_le M (i + 1)
    rw [Prod.mk.injEq] at hit
    omega
  obtain ⟨x, s, hx, hsx, hPe⟩ := locate M hPM
  have hky : M[x][s].1 ∈ keys (row M x) := by
    rw [row_of_lt hx]; exact List.mem_map_of_mem (f := (·.1)) (List.getElem_mem hsx)
  have hPxy : flatPos M x M[x][s].1 = P := by
    have hax := at_key e2.1 hs2 hky
    obtain ⟨_, u, hu, hue, huj, _⟩ := at_rep e2.1 hax
    rw [Prod.mk.injEq] at hue
    have : u = s := by
      have hr := hs2 x
      rw [row_of_lt hx] at hr
      have hnd : (keys M[x]).Nodup := hr.imp (fun h => Nat.ne_of_lt h)
      have h1 := hnd.idxOf_getElem u (by simpa using hu)
      have h2 := hnd.idxOf_getElem s (by simpa using hsx)
      rw [List.getElem_map] at h1 h2
      rw [huj] at h1
      omega
    omega
  have htot : ∀ x1 y1 x2 y2, y1 ∈ keys (row M x1) → y2 ∈ keys (row M x2) → flatPos M x1 y1 < flatPos M x2 y2 →
      Ahead x1 y1 x2 y2 := by
    intro x1 y1 x2 y2 h1 h2 hlt
    by_contra hc
    by_cases he : x1 = x2 ∧ y1 = y2
    · rw [he.1, he.2] at hlt; omega
    · have : Ahead x2 y2 x1 y1 := by unfold Ahead at hc ⊢; omega
      have := flatPos_lt hs2 h2 this
      omega
  refine ⟨x, M[x][s].1, htot _ _ _ _ hky ki (by omega), ?_, ?_⟩
  · have := at_key e2.1 hs2 hky
    rwa [hPxy] at this
  · intro x' y' it hat hbe
    obtain ⟨hx', u, hu, hue, huj, _⟩ := at_rep e2.1 hat
    have hky' : y' ∈ keys (row M x') := by
      rw [row_of_lt hx', ← huj]; exact List.mem_map_of_mem (f := (·.1)) (List.getElem_mem hu)
    have hlt := flatPos_lt hs2 hky' hbe
    by_cases he : x' = x ∧ y' = M[x][s].1
    · exact .inl he
    · right
      by_contra hc
      have : Ahead x M[x][s].1 x' y' := by unfold Ahead at hc ⊢; omega
      have := flatPos_lt hs2 hky this
      omega

/-- C152, no room: if the first element is there and the second one is not, the first reference dangles. -/
theorem c152_full (a b : Alloc) (c : SparseRoom α) (h : SparseHeld a b c) (i j k l : Nat) (hi : i < c.matrix.sizeRow)
    (hk : k < c.matrix.sizeRow) (hj : j < sizeMax) (hl : l < sizeMax) (hfull : c.vals = c.matrix.sizeNonZero)
    (hy : c.matrix.contains i j = .ok true) (hn : c.matrix.contains k l = .ok false) :
    c.refs a b i j k l = .ub := by
  obtain ⟨L, hf⟩ := sparse_held h
  rw [hf.1.sizeRow] at hi hk
  have hl0 := hf.1.lengths
  unfold Sparse.sizeNonZero at hfull
  rw [hf.1.contains hi, Out.ok.injEq, decide_eq_true_eq, ← row_of_lt hi] at hy
  rw [hf.1.contains hk, Out.ok.injEq, decide_eq_false_iff_not, ← row_of_lt hk] at hn
  have hI : insRows i j (0 : α) L = L := by unfold insRows; rw [if_pos hy]
  obtain ⟨c1, e1, e2, e3, _⟩ := ref_room (a := a) (b := b) hf hi hj
  rw [e3 hy] at e1
  obtain ⟨c2, f1, f2, _, f4⟩ := ref_room (a := a) (b := b) hf hk hl
  unfold SparseRoom.refs
  simp only [e1, f1, Out.ok_bind]
  rw [if_neg]
  rw [f4 hn]
  have := (fit_ge b c.vals L.flatten.length (L.flatten.length + 1)).2
  omega

/-- C152: two elements that are there can be swapped, whatever the storage. -/
theorem c152_swap (a b : Alloc) (c : SparseRoom α) (h : SparseHeld a b c) (i j k l : Nat) (hj : j < sizeMax)
    (hl : l < sizeMax) (x y : α) (hi : i < c.matrix.sizeRow) (hk : k < c.matrix.sizeRow)
    (hx : Spec.lookup c.matrix i j = .ok (some x)) (hy : Spec.lookup c.matrix k l = .ok (some y)) :
    ∃ p q c', c.refs a b i j k l = .ok (c, p, q) ∧ c.swapAt p q = .ok c' ∧ c'.matrix.sizeRow = c.matrix.sizeRow ∧
      c'.matrix.colSize = c.matrix.colSize ∧ ∀ s t, s < c.matrix.sizeRow → Spec.lookup c'.matrix s t =
        if s = i ∧ t = j then .ok (some y) else if s = k ∧ t = l then .ok (some x) else Spec.lookup c.matrix s t := by
  obtain ⟨L, hf⟩ := sparse_held h
  have hrow := hf.1.sizeRow
  rw [hrow] at hi hk
  have hs := hf.2.1
  rw [lookup_ok hf.1 hi, Out.ok.injEq] at hx
  rw [lookup_ok hf.1 hk, Out.ok.injEq] at hy
  have hki : j ∈ keys (row L i) := mem_keys_iff.mpr (by rw [hx]; simp)
  have hkk : l ∈ keys (row L k) := mem_keys_iff.mpr (by rw [hy]; simp)
  have hI : insRows i j (0 : α) L = L := by unfold insRows; rw [if_pos hki]
  have hK : insRows k l (0 : α) L = L := by unfold insRows; rw [if_pos hkk]
  obtain ⟨c1, e1, _, e3, _⟩ := ref_room (a := a) (b := b) hf hi hj
  obtain ⟨c2, f1, _, f3, _⟩ := ref_room (a := a) (b := b) hf hk hl
  rw [e3 hki, hI] at e1
  rw [f3 hkk, hK] at f1
  have hv1 := hf.1.valPos (a := i) hs hi hx
  have hv2 := hf.1.valPos (a := k) hs hk hy
  obtain ⟨m1, g1, g2, g3⟩ := hf.1.setPos (a := i) hs hi hki y
  have hs1 := sorted_setRow hs hi hki y
  generalize hM : L.set i (setRow j y (row L i)) = M at *
  have hkeys : ∀ s, keys (row M s) = keys (row L s) := by
    intro s
    rw [← hM, row_set hi]
    split
    · rename_i hc; subst hc; exact setRow_keys (hs s) hki
    · rfl
  have hlen : M.length = L.length := by rw [← hM, List.length_set]
  have hkM : k < M.length := by omega
  have hps : psum M k = psum L k := by
    rw [← hM, psum_set L hi, setRow_length, row_of_lt hi]
    split
    · rfl
    · have h1 := psum_succ L hi
      have h2 : psum L (i + 1) ≤ psum L k := psum_mono L (by omega)
      omega
  have hpo : pos l (row M k) = pos l (row L k) := by unfold pos; rw [hkeys]
  obtain ⟨m2, k1, k2, k3⟩ := g3.setPos (a := k) hs1 hkM (by rw [hkeys]; exact hkk) x
  rw [hps, hpo] at k1
  refine ⟨(i, flatPos L i j), (k, flatPos L k l), { c with matrix := m2 }, ?_, ?_, ?_, ?_, ?_⟩
  · unfold SparseRoom.refs
    simp only [e1, f1, Out.ok_bind, if_true, Out.pure_eq]
  · unfold SparseRoom.swapAt flatPos
    simp only [hv1, hv2, Out.ok_bind, SparseRoom.setAt, g1, Out.pure_eq, k1]
  · rw [hrow, k3.sizeRow, List.length_set, hlen]
  · show m2.colSize = _; rw [k2, g2]
  · intro s t hst
    rw [hrow] at hst
    have hs' : s < (M.set k (setRow l x (row M k))).length := by rw [List.length_set, hlen]; exact hst
    show Spec.lookup m2 s t = _
    rw [lookup_ok k3 hs', lookup_ok hf.1 hst, entry_setRow hs1 hkM (by rw [hkeys]; exact hkk), ← hM, entry_setRow hs hi hki]
    by_cases h1 : s = i ∧ t = j
    · rw [if_pos h1, if_pos h1]
      split
      · rename_i h2
        obtain ⟨rfl, rfl⟩ := h1
        obtain ⟨rfl, rfl⟩ := h2
        rw [hx] at hy
        rw [Option.some.inj hy]
      · rfl
    · rw [if_neg h1, if_neg h1]
      split <;> rfl

end

/-- A matrix with room for two more elements. -/
def roomy : SparseRoom Int := ⟨⟨[0, 1, 2], [1, 0], [5, 7], 2⟩, 3, 4, 4⟩

theorem roomy_held : SparseHeld exactAlloc exactAlloc roomy :=
  ⟨_, [.reserve 2 4, .insert 0 1 5, .insert 1 0 7], .new, by
    intro op hop
    simp only [List.mem_cons, List.not_mem_nil, or_false] at hop
    rcases hop with rfl | rfl | rfl
    · trivial
    · exact ⟨by decide, by decide⟩
    · exact ⟨by decide, by decide⟩, rfl⟩

/-- `matrix[1][0]` and `matrix[0][0]`: the first reference is to the element `(0, 1)` afterwards. -/
theorem c152_violated : ¬ C152 := by
  intro h
  obtain ⟨c', p, q, h1, h2, _⟩ := h exactAlloc exactAlloc roomy 1 0 0 0 roomy_held (by decide) (by decide) (by decide) (by decide)
    (by decide)
  have h3 : SparseRoom.refs exactAlloc exactAlloc roomy 1 0 0 0 =
    .ok (⟨⟨[0, 2, 3], [0, 1, 0], [0, 5, 7], 2⟩, 3, 4, 4⟩, (1, 1), (0, 0)) := rfl
  rw [h3, Out.ok.injEq] at h1
  cases h1
  exact absurd h2.2 (by decide)

/-- The other order is right: the hypotheses of the partial claim can be met. -/
example : ∃ c', roomy.refs exactAlloc exactAlloc 0 0 1 1 = .ok (c', (0, 0), (1, 3)) ∧ ¬ Ahead 1 1 0 0 :=
  ⟨_, rfl, by unfold Ahead; omega⟩

end Disa.Props
