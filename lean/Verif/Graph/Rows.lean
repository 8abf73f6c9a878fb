import Verif.Csr
import Verif.Graph.Model

/-!
# Graphs as lists of rows

Helper definitions and lemmas: relation between the flat storage and a list of adjacency rows.
-/

namespace Disa

/-- Row `i`, empty when out of range. -/
def row (L : List (List α)) (i : Nat) : List α := (L[i]?).getD []

theorem row_of_lt {L : List (List α)} {i : Nat} (h : i < L.length) : row L i = L[i] := by simp [row, h]

theorem row_of_ge {L : List (List α)} {i : Nat} (h : L.length ≤ i) : row L i = [] := by simp [row, h]

theorem lt_of_mem_row {L : List (List α)} {i : Nat} {x : α} (h : x ∈ row L i) : i < L.length := by
  by_contra hc
  rw [row_of_ge (by omega)] at h
  simp at h

theorem row_set {L : List (List α)} {i j : Nat} (h : i < L.length) (r : List α) :
    row (L.set i r) j = if j = i then r else row L j := by
  unfold row
  rw [List.getElem?_set]
  split <;> rename_i hh
  · subst hh; simp [h]
  · rw [if_neg (Ne.symm hh)]

/-- Extend with empty rows to at least `n` rows. -/
def pad (L : List (List α)) (n : Nat) : List (List α) := L ++ List.replicate (n - L.length) []

@[simp] theorem pad_length (L : List (List α)) (n : Nat) : (pad L n).length = max L.length n := by
  simp [pad]; omega

@[simp] theorem row_pad (L : List (List α)) (n i : Nat) : row (pad L n) i = row L i := by
  unfold row pad
  rw [List.getElem?_append]
  split
  · rfl
  · rename_i h
    rw [List.getElem?_eq_none (l := L) (by omega), List.getElem?_replicate]
    split <;> rfl

@[simp] theorem flatten_pad (L : List (List α)) (n : Nat) : (pad L n).flatten = L.flatten := by
  simp [pad]

@[simp] theorem psum_pad (L : List (List α)) (n i : Nat) : psum (pad L n) i = psum L i :=
  psum_append_replicate L _ i

theorem pad_eq (L : List (List α)) {n : Nat} (h : n ≤ L.length) : pad L n = L := by
  simp [pad, Nat.sub_eq_zero_of_le h]

theorem rows_ext {L M : List (List α)} (hl : L.length = M.length) (h : ∀ i, row L i = row M i) : L = M := by
  apply List.ext_getElem hl
  intro i h1 h2
  have := h i
  rwa [row_of_lt h1, row_of_lt h2] at this

/-! ### Sorted rows -/

theorem mem_takeWhile_imp {p : α → Bool} {l : List α} {x : α} (h : x ∈ l.takeWhile p) : p x = true :=
  List.all_eq_true.mp List.all_takeWhile x h

theorem takeWhile_append_drop (p : α → Bool) (l : List α) :
    l.drop (l.takeWhile p).length = l.dropWhile p := by
  conv => lhs; rw [← List.takeWhile_append_dropWhile (p := p) (l := l)]
  rw [List.drop_append_of_le_length (by simp)]
  simp

theorem take_takeWhile (p : α → Bool) (l : List α) :
    l.take (l.takeWhile p).length = l.takeWhile p := by
  conv => lhs; rw [← List.takeWhile_append_dropWhile (p := p) (l := l)]
  rw [List.take_append_of_le_length (by simp)]
  simp

theorem dropWhile_ge {r : List Nat} (h : r.Pairwise (· < ·)) (x : Nat) : ∀ y ∈ r.dropWhile (· < x), x ≤ y := by
  induction r with
  | nil => simp
  | cons a r ih =>
    rw [List.pairwise_cons] at h
    intro y hy
    rw [List.dropWhile_cons] at hy
    split at hy
    · exact ih h.2 y hy
    · rename_i hn
      simp at hn
      rcases List.mem_cons.mp hy with rfl | hy
      · exact hn
      · have := h.1 y hy; omega

theorem lowerBound_ok {r : List Nat} (h : r.Pairwise (· < ·)) (x : Nat) :
    lowerBound r x = .ok (r.takeWhile (· < x)).length := by
  unfold lowerBound
  simp only []
  rw [if_pos]
  rw [takeWhile_append_drop, List.all_eq_true]
  intro y hy
  simpa using dropWhile_ge h x y hy

/-- Sorted insertion. -/
def sins (x : Nat) (r : List Nat) : List Nat := insAt r (r.takeWhile (· < x)).length x

theorem sins_eq (x : Nat) (r : List Nat) : sins x r = r.takeWhile (· < x) ++ x :: r.dropWhile (· < x) := by
  rw [sins, insAt, takeWhile_append_drop, take_takeWhile]

@[simp] theorem mem_sins {x y : Nat} {r : List Nat} : y ∈ sins x r ↔ y = x ∨ y ∈ r := by
  rw [sins_eq]
  conv => rhs; rw [← List.takeWhile_append_dropWhile (p := (· < x)) (l := r)]
  simp only [List.mem_append, List.mem_cons]
  tauto

@[simp] theorem length_sins (x : Nat) (r : List Nat) : (sins x r).length = r.length + 1 := by
  rw [sins_eq]
  conv => rhs; rw [← List.takeWhile_append_dropWhile (p := (· < x)) (l := r)]
  simp only [List.length_append, List.length_cons]
  omega

theorem sins_sorted {x : Nat} {r : List Nat} (h : r.Pairwise (· < ·)) (hx : x ∉ r) : (sins x r).Pairwise (· < ·) := by
  have hge := dropWhile_ge h x
  have hdec := List.takeWhile_append_dropWhile (p := (· < x)) (l := r)
  rw [sins_eq]
  rw [← hdec] at h hx
  rw [List.pairwise_append] at h ⊢
  refine ⟨h.1, ?_, ?_⟩
  · rw [List.pairwise_cons]
    refine ⟨fun y hy => ?_, h.2.1⟩
    have h1 := hge y hy
    have h2 : y ≠ x := fun e => hx (by simp only [List.mem_append]; right; exact e ▸ hy)
    omega
  · intro y hy z hz
    have hyx : y < x := by simpa using mem_takeWhile_imp hy
    rcases List.mem_cons.mp hz with rfl | hz
    · exact hyx
    · have := hge z hz; omega

theorem sorted_ext {r s : List Nat} (hr : r.Pairwise (· < ·)) (hs : s.Pairwise (· < ·)) (h : ∀ x, x ∈ r ↔ x ∈ s) :
    r = s := by
  induction r generalizing s with
  | nil =>
    cases s with
    | nil => rfl
    | cons a s => have := (h a).mpr (by simp); simp at this
  | cons a r ih =>
    cases s with
    | nil => have := (h a).mp (by simp); simp at this
    | cons b s =>
      rw [List.pairwise_cons] at hr hs
      have hab : a = b := by
        have h1 := (h a).mp (by simp)
        have h2 := (h b).mpr (by simp)
        rcases List.mem_cons.mp h1 with h1 | h1
        · exact h1
        · rcases List.mem_cons.mp h2 with h2 | h2
          · exact h2.symm
          · have := hr.1 b h2; have := hs.1 a h1; omega
      subst hab
      rw [ih hr.2 hs.2]
      intro x
      have := h x
      simp only [List.mem_cons] at this
      constructor
      · intro hx
        have hne := hr.1 x hx
        rcases this.mp (.inr hx) with h' | h'
        · omega
        · exact h'
      · intro hx
        have hne := hs.1 x hx
        rcases this.mpr (.inr hx) with h' | h'
        · omega
        · exact h'

/-! ### Representation -/

/-- `g` stores the rows `L`.  The default constructed graph has an empty offset vector. -/
def Graph.Rep (g : Graph) (L : List (List Nat)) : Prop :=
  g.adj = L.flatten ∧ (g.off = offs L ∨ (L = [] ∧ g.off = []))

/-- Well formed adjacency rows. -/
structure Good (d : Bool) (L : List (List Nat)) : Prop where
  sorted : ∀ i, (row L i).Pairwise (· < ·)
  range : ∀ i, ∀ j ∈ row L i, j < L.length
  loopless : ∀ i, i ∉ row L i
  symm : d = false → ∀ i j, j ∈ row L i → i ∈ row L j

theorem good_nil (d : Bool) : Good d [] := by
  constructor <;> simp [row]

theorem good_pad {d : Bool} {L : List (List Nat)} (h : Good d L) (n : Nat) : Good d (pad L n) := by
  constructor
  · simpa using h.sorted
  · intro i j hj
    have := h.range i j (by simpa using hj)
    simp; omega
  · simpa using h.loopless
  · simpa using h.symm

namespace Graph

theorem rep_new : new.Rep [] := ⟨rfl, .inr ⟨rfl, rfl⟩⟩

theorem Rep.sizeVertex {g : Graph} {L} (h : g.Rep L) : g.sizeVertex = L.length := by
  unfold Graph.sizeVertex
  rcases h.2 with h' | ⟨rfl, h'⟩
  · have := offs_length L
    rw [h']
    cases hc : offs L with
    | nil => rw [hc] at this; simp at this
    | cons _ _ => rw [hc] at this; simpa using this
  · simp [h']

theorem Rep.empty {g : Graph} {L} (h : g.Rep L) : g.empty = decide (L.length = 0) := by
  have hs := h.sizeVertex
  unfold Graph.sizeVertex at hs
  unfold Graph.empty
  cases hc : g.off with
  | nil => rw [hc] at hs; simp at hs; simp [← hs]
  | cons a l =>
    rw [hc] at hs
    simp only [List.isEmpty_cons, Bool.not_false, if_true, List.length_cons, Nat.add_sub_cancel] at hs
    simp only [List.isEmpty_cons, List.length_cons, Bool.false_or]
    congr 1
    simp only [eq_iff_iff]; omega

theorem Rep.off {g : Graph} {L} (h : g.Rep L) (hn : L ≠ []) : g.off = offs L := by
  rcases h.2 with h | ⟨h, _⟩
  · exact h
  · exact absurd h hn

theorem Rep.adjIter {g : Graph} {L} (h : g.Rep L) {v : Nat} (hv : v < L.length) :
    g.adjIter v = .ok (psum L v, psum L (v + 1)) := by
  have ho := h.off (by rintro rfl; simp at hv)
  simp [Graph.adjIter, ho, rd_of_some (offs_getElem? L (show v ≤ L.length by omega)),
    rd_of_some (offs_getElem? L (show v + 1 ≤ L.length by omega))]

theorem Rep.nbrs {g : Graph} {L} (h : g.Rep L) {v : Nat} (hv : v < L.length) : g.nbrs v = .ok (row L v) := by
  rw [row_of_lt hv]
  simp [Graph.nbrs, h.sizeVertex, hv, h.adjIter hv, h.1, slice_row L hv]

theorem Rep.nbrs_exit {g : Graph} {L} (h : g.Rep L) {v : Nat} (hv : L.length ≤ v) : g.nbrs v = .exit 1 := by
  simp [Graph.nbrs, h.sizeVertex, Nat.not_lt.mpr hv]

theorem Rep.degree {g : Graph} {L} (h : g.Rep L) {v : Nat} (hv : v < L.length) :
    g.degree v = .ok (row L v).length := by
  have ho := h.off (by rintro rfl; simp at hv)
  rw [row_of_lt hv]
  have := psum_succ L hv
  simp [Graph.degree, h.sizeVertex, hv, ho, rd_of_some (offs_getElem? L (show v ≤ L.length by omega)),
    rd_of_some (offs_getElem? L (show v + 1 ≤ L.length by omega)), this, usub_of_le]

theorem Rep.contains {d : Bool} {g : Graph} {L} (h : g.Rep L) (hg : Good d L) (e : Edge) :
    g.contains e = if e.1 = e.2 then .exit 1 else .ok (decide (e.2 ∈ row L e.1)) := by
  obtain ⟨a, b⟩ := e
  unfold Graph.contains
  by_cases hab : a = b
  · simp [hab]
  have hne : (a != b) = true := by simpa using hab
  simp only [hne, assert_true, h.empty, h.sizeVertex, Out.ok_bind, if_neg hab]
  by_cases h0 : L.length = 0
  · have : L = [] := List.length_eq_zero_iff.mp h0
    simp [this, row]
  by_cases hm : max a b ≥ L.length
  · have : b ∉ row L a := by
      intro hb
      have := hg.range a b hb
      have := lt_of_mem_row hb
      omega
    simp [h0, hm, this]
  have ha : a < L.length := by omega
  simp only [h0, hm, h.nbrs ha, lowerBound_ok (hg.sorted a) b,
    Out.ok_bind, Out.pure_eq, if_false, decide_false, Bool.false_eq_true]
  have hdec := List.takeWhile_append_dropWhile (p := (· < b)) (l := row L a)
  have hge := dropWhile_ge (hg.sorted a) b
  have hlt : ∀ y ∈ (row L a).takeWhile (· < b), y < b := fun y hy => by simpa using mem_takeWhile_imp hy
  generalize hT : (row L a).takeWhile (· < b) = T at *
  generalize hD : (row L a).dropWhile (· < b) = D at *
  rw [← hdec]
  cases D with
  | nil =>
    have : b ∉ T := fun hb => by have := hlt b hb; omega
    simp [this]
  | cons c D =>
    have : b ∉ T := fun hb => by have := hlt b hb; omega
    simp only [List.length_append, List.length_cons, List.mem_append, this, false_or]
    rw [if_pos (by simp)]
    rw [rd_of_some (a := c) (by simp)]
    simp only [Out.ok_bind]
    have hs := hg.sorted a
    rw [← hdec, List.pairwise_append, List.pairwise_cons] at hs
    by_cases hcb : c = b
    · subst hcb; simp
    · have : b ∉ D := fun hb => by
        have h1 := hs.2.1.1 b hb
        have h2 := hge c (by simp)
        omega
      simp [hcb, Ne.symm hcb, this]

/-! ### Insertion -/

theorem Rep.insertAdj {g : Graph} {L} (h : g.Rep L) {v x : Nat} (hv : v < L.length)
    (hs : (row L v).Pairwise (· < ·)) :
    g.insertAdj v x = .ok { g with adj := (L.set v (sins x (row L v))).flatten } := by
  have hr := row_of_lt hv
  simp only [Graph.insertAdj, h.adjIter hv, h.1, slice_row L hv, Out.ok_bind, Out.pure_eq]
  rw [← hr, lowerBound_ok hs]
  simp only [Out.ok_bind]
  rw [insAt_flatten L hv]
  · rw [← hr]; rfl
  · rw [← hr]; exact List.Sublist.length_le (List.takeWhile_sublist _)

theorem resize_grow {g : Graph} {L} (h : g.Rep L) {n : Nat} (hn : L.length < n) (hm : n < sizeMax) (strict : Bool) :
    ∃ g', g.resize strict n = .ok g' ∧ g'.Rep (pad L n) := by
  unfold Graph.resize
  have hw : wrap (n + 1) = n + 1 := by unfold wrap; exact Nat.mod_eq_of_lt (by unfold sizeMax at hm; omega)
  rw [if_pos (by rw [h.sizeVertex]; exact hn), hw]
  refine ⟨_, rfl, by simp [h.1], .inl ?_⟩
  rw [offs_eq_iff]
  have hlen : (pad L n).length = n := by simp; omega
  rw [hlen]
  rcases h.2 with ho | ⟨rfl, ho⟩
  · constructor
    · simp [resizeList, ho]; omega
    · intro i hi
      have hne : g.off.isEmpty = false := by
        cases hc : g.off with
        | nil => rw [hc] at ho; have := offs_length L; rw [← ho] at this; simp at this
        | cons _ _ => rfl
      simp only [resizeList, hne, psum_pad]
      rw [List.take_of_length_le (by rw [ho]; simp; omega), List.getElem?_append]
      split
      · rename_i hi'
        rw [ho] at hi' ⊢
        simp at hi'
        rw [offs_getElem? L (by omega)]
      · rename_i hi'
        rw [ho] at hi' ⊢
        simp at hi'
        rw [List.getElem?_replicate, if_pos (by simp; omega)]
        have : (offs L).getLastD 0 = psum L L.length := by
          rw [List.getLastD_eq_getLast?, List.getLast?_eq_getElem?]
          simp only [offs_length, Nat.add_sub_cancel]
          rw [offs_getElem? L (by omega)]; rfl
        simp only [this, Bool.false_eq_true, if_false]
        rw [psum_length, psum_of_ge L (by omega)]
  · constructor
    · simp [resizeList, ho]
    · intro i hi
      simp only [resizeList, ho, psum_pad]
      simp [List.getElem?_replicate, psum]
      omega

theorem addOff_ok {off : List Nat} {lo hi c : Nat} (h1 : lo ≤ hi) (h2 : hi ≤ off.length) :
    addOff off lo hi c = .ok (off.mapIdx fun i o => if lo ≤ i ∧ i < hi then o + c else o) := by
  simp [addOff, h1, h2]

/-- Rows after inserting an edge. -/
def insRows (d : Bool) (L : List (List Nat)) (e : Edge) : List (List Nat) :=
  let P := pad L (max e.1 e.2 + 1)
  if d then P.set e.1 (sins e.2 (row P e.1))
  else
    let lo := min e.1 e.2
    let hi := max e.1 e.2
    (P.set lo (sins hi (row P lo))).set hi (sins lo (row P hi))

theorem insRows_length (d : Bool) (L : List (List Nat)) (e : Edge) :
    (insRows d L e).length = max L.length (max e.1 e.2 + 1) := by
  unfold insRows; split <;> simp

theorem mem_insRows {d : Bool} {L : List (List Nat)} {e : Edge} (hne : e.1 ≠ e.2) (i j : Nat) :
    j ∈ row (insRows d L e) i ↔ j ∈ row L i ∨ (i, j) = e ∨ (d = false ∧ (j, i) = e) := by
  obtain ⟨a, b⟩ := e
  simp only at hne
  unfold insRows
  cases d
  · simp only [Bool.false_eq_true, if_false]
    rw [row_set (by simp; omega), row_set (by simp; omega)]
    rcases Nat.lt_or_gt_of_ne hne with h | h
    · rw [Nat.min_eq_left (by omega), Nat.max_eq_right (by omega)]
      by_cases h1 : i = b
      · subst h1
        simp only [if_true, mem_sins, row_pad, Prod.mk.injEq]
        constructor
        · rintro (rfl | h) <;> simp [*]
        · rintro (h | ⟨rfl, rfl⟩ | ⟨_, rfl, _⟩) <;> simp_all
      · by_cases h2 : i = a
        · subst h2
          simp only [h1, if_false, if_true, mem_sins, row_pad, Prod.mk.injEq]
          tauto
        · simp only [h1, h2, if_false, row_pad, Prod.mk.injEq]
          tauto
    · rw [Nat.min_eq_right (by omega), Nat.max_eq_left (by omega)]
      by_cases h1 : i = a
      · subst h1
        simp only [if_true, mem_sins, row_pad, Prod.mk.injEq]
        constructor
        · rintro (rfl | h) <;> simp [*]
        · rintro (h | ⟨_, rfl⟩ | ⟨_, rfl, _⟩) <;> simp_all
      · by_cases h2 : i = b
        · subst h2
          simp only [h1, if_false, if_true, mem_sins, row_pad, Prod.mk.injEq]
          tauto
        · simp only [h1, h2, if_false, row_pad, Prod.mk.injEq]
          tauto
  · simp only [if_true]
    rw [row_set (by simp; omega)]
    by_cases h2 : i = a
    · subst h2
      simp only [if_true, mem_sins, row_pad, Prod.mk.injEq]
      tauto
    · simp only [h2, if_false, row_pad, Prod.mk.injEq]
      simp

theorem insRows_good {d : Bool} {L : List (List Nat)} {e : Edge} (hg : Good d L) (hne : e.1 ≠ e.2)
    (hn : e.2 ∉ row L e.1) : Good d (insRows d L e) := by
  constructor
  · intro i
    have hs := hg.sorted
    unfold insRows
    cases d
    · have hn' : e.1 ∉ row L e.2 := fun h => hn (hg.symm rfl _ _ h)
      simp only [Bool.false_eq_true, if_false]
      rw [row_set (by simp; omega), row_set (by simp; omega)]
      rcases Nat.lt_or_gt_of_ne hne with h | h
      · rw [Nat.min_eq_left (by omega), Nat.max_eq_right (by omega)]
        split
        · exact sins_sorted (by simpa using hs _) (by simpa using hn')
        · split
          · exact sins_sorted (by simpa using hs _) (by simpa using hn)
          · simpa using hs i
      · rw [Nat.min_eq_right (by omega), Nat.max_eq_left (by omega)]
        split
        · exact sins_sorted (by simpa using hs _) (by simpa using hn)
        · split
          · exact sins_sorted (by simpa using hs _) (by simpa using hn')
          · simpa using hs i
    · simp only [if_true]
      rw [row_set (by simp; omega)]
      split
      · exact sins_sorted (by simpa using hs _) (by simpa using hn)
      · simpa using hs i
  · intro i j hj
    rw [insRows_length]
    rcases (mem_insRows hne i j).mp hj with h | h | ⟨_, h⟩
    · have := hg.range i j h; omega
    · rw [← h]; simp; omega
    · rw [← h]; simp; omega
  · intro i hi
    rcases (mem_insRows hne i i).mp hi with h | h | ⟨_, h⟩
    · exact hg.loopless i h
    · rw [← h] at hne; exact hne rfl
    · rw [← h] at hne; exact hne rfl
  · intro hd i j hj
    rw [mem_insRows hne] at hj ⊢
    rcases hj with h | h | ⟨_, h⟩
    · exact .inl (hg.symm hd i j h)
    · exact .inr (.inr ⟨hd, h⟩)
    · exact .inr (.inl h)

theorem insRows_flatten_length {d : Bool} {L : List (List Nat)} {e : Edge} (hne : e.1 ≠ e.2) :
    (insRows d L e).flatten.length = L.flatten.length + if d then 1 else 2 := by
  have key : ∀ (P : List (List Nat)) (i x : Nat), i < P.length →
      (P.set i (sins x (row P i))).flatten.length = P.flatten.length + 1 := by
    intro P i x hi
    have h := psum_set P hi (sins x (row P i)) P.length
    have h1 := psum_length (P.set i (sins x (row P i)))
    rw [List.length_set] at h1
    rw [← h1, h, if_neg (by omega), psum_length, length_sins, row_of_lt hi]
    have h2 := psum_succ P hi
    have h3 := psum_le P (i + 1)
    omega
  unfold insRows
  cases d
  · simp only [Bool.false_eq_true, if_false]
    have e1 : row (pad L (max e.1 e.2 + 1)) (max e.1 e.2) =
        row ((pad L (max e.1 e.2 + 1)).set (min e.1 e.2)
          (sins (max e.1 e.2) (row (pad L (max e.1 e.2 + 1)) (min e.1 e.2)))) (max e.1 e.2) := by
      rw [row_set (by simp; omega), if_neg (by omega)]
    conv => lhs; rw [e1]
    rw [key _ _ _ (by simp; omega), key _ _ _ (by simp; omega), flatten_pad]
  · simp only [if_true]
    rw [key _ _ _ (by simp; omega), flatten_pad]

/-- Effect of one `insert` on the rows. -/
theorem Rep.insert {d : Bool} {g : Graph} {L} (h : g.Rep L) (hg : Good d L) (e : Edge) (hne : e.1 ≠ e.2)
    (hmax : max e.1 e.2 + 1 < sizeMax) :
    (e.2 ∈ row L e.1 → g.insert d e = .ok (g, false)) ∧
    (e.2 ∉ row L e.1 → ∃ g', g.insert d e = .ok (g', true) ∧ g'.Rep (insRows d L e)) := by
  have hb : (e.1 != e.2) = true := by simpa using hne
  have hc := h.contains hg e
  rw [if_neg hne] at hc
  constructor
  · intro hin
    simp only [Graph.insert, hb, assert_true, hc, hin, decide_true, Out.ok_bind, if_true, Out.pure_eq]
  intro hn
  -- the grown graph
  obtain ⟨g1, hg1, hrep⟩ : ∃ g1, g.growFor (max e.1 e.2) = .ok g1 ∧ g1.Rep (pad L (max e.1 e.2 + 1)) := by
    unfold Graph.growFor
    rw [h.sizeVertex]
    have hw : wrap (max e.1 e.2 + 1) = max e.1 e.2 + 1 := by
      unfold wrap; exact Nat.mod_eq_of_lt (by unfold sizeMax at hmax; omega)
    split
    · rw [hw]; exact resize_grow h (by omega) (by omega) true
    · exact ⟨g, rfl, by rw [pad_eq L (by omega)]; exact h⟩
  have hP := good_pad hg (max e.1 e.2 + 1)
  have hPl : max e.1 e.2 < (pad L (max e.1 e.2 + 1)).length := by simp; omega
  generalize hPd : pad L (max e.1 e.2 + 1) = P at hrep hP hPl
  have hoff := hrep.off (by rintro rfl; simp at hPl)
  cases d with
  | true =>
    have ha : e.1 < P.length := by omega
    have hset : (g1.insertAdj e.1 e.2) = .ok { g1 with adj := (P.set e.1 (sins e.2 (row P e.1))).flatten } :=
      hrep.insertAdj ha (hP.sorted _)
    have hadd : addOff g1.off (e.1 + 1) g1.off.length 1 = .ok _ :=
      addOff_ok (by rw [hoff]; simp; omega) (Nat.le_refl _)
    refine ⟨⟨?x, ?y⟩, ?m, ?r1, .inl ?r2⟩
    case m =>
      unfold Graph.insert
      simp only [hb, assert_true, hc, hn, decide_false, Out.ok_bind, Bool.false_eq_true, if_false, Bool.not_true, hg1,
        hset, hadd, if_true, Out.pure_eq]
      rfl
    case r1 => simp only [insRows, hPd, if_true]
    case r2 =>
      simp only [insRows, hPd, if_true]
      rw [offs_eq_iff]
      refine ⟨by simp [hoff], ?_⟩
      intro i hi
      rw [List.length_set] at hi
      rw [List.getElem?_mapIdx, hoff, offs_getElem? P hi, psum_set P ha, length_sins, row_of_lt ha]
      simp only [Option.map_some, offs_length]
      congr 1
      have := psum_succ P ha
      split <;> split <;> try omega
      have := psum_mono P (show e.1 + 1 ≤ i by omega)
      omega
  | false =>
    obtain ⟨a, b, hab, hord, hmn, hmx⟩ : ∃ a b, a < b ∧ orderEdge e = (a, b) ∧ min e.1 e.2 = a ∧ max e.1 e.2 = b := by
      unfold orderEdge
      rcases Nat.lt_or_gt_of_ne hne with h | h
      · exact ⟨e.1, e.2, h, by simp [h], by omega, by omega⟩
      · exact ⟨e.2, e.1, h, by rw [if_neg (by omega)], by omega, by omega⟩
    rw [hmx] at hPl hPd hg1
    have ha : a < P.length := by omega
    have hmx' : max a b = b := by omega
    have hset : (g1.insertAdj a b) = .ok { g1 with adj := (P.set a (sins b (row P a))).flatten } :=
      hrep.insertAdj ha (hP.sorted _)
    have hadd : addOff g1.off (a + 1) (b + 2) 1 = .ok _ :=
      addOff_ok (by omega) (by rw [hoff]; simp; omega)
    have hrow : row (P.set a (sins b (row P a))) b = row P b := by rw [row_set ha, if_neg (by omega)]
    have hQa : psum (P.set a (sins b (row P a))) b = psum P b + 1 := by
      rw [psum_set P ha, if_neg (by omega), length_sins, row_of_lt ha]
      have := psum_succ P ha
      have := psum_mono P (show a + 1 ≤ b by omega)
      omega
    have hQb : psum (P.set a (sins b (row P a))) (b + 1) = psum P (b + 1) + 1 := by
      rw [psum_set P ha, if_neg (by omega), length_sins, row_of_lt ha]
      have := psum_succ P ha
      have := psum_mono P (show a + 1 ≤ b + 1 by omega)
      omega
    have hbQ : b < (P.set a (sins b (row P a))).length := by simpa using hPl
    have hset2 : Graph.insertAdj ⟨(P.set a (sins b (row P a))).flatten,
        g1.off.mapIdx fun i o => if a + 1 ≤ i ∧ i < b + 2 then o + 1 else o⟩ b a =
        .ok ⟨((P.set a (sins b (row P a))).set b (sins a (row P b))).flatten,
        g1.off.mapIdx fun i o => if a + 1 ≤ i ∧ i < b + 2 then o + 1 else o⟩ := by
      unfold Graph.insertAdj Graph.adjIter
      have r1 : rd (g1.off.mapIdx fun i o => if a + 1 ≤ i ∧ i < b + 2 then o + 1 else o) b =
          .ok (psum (P.set a (sins b (row P a))) b) := by
        apply rd_of_some
        rw [List.getElem?_mapIdx, hoff, offs_getElem? P (by omega), hQa]
        simp; omega
      have r2 : rd (g1.off.mapIdx fun i o => if a + 1 ≤ i ∧ i < b + 2 then o + 1 else o) (b + 1) =
          .ok (psum (P.set a (sins b (row P a))) (b + 1)) := by
        apply rd_of_some
        rw [List.getElem?_mapIdx, hoff, offs_getElem? P (by omega), hQb]
        simp; omega
      have hr := row_of_lt hbQ
      simp only [r1, r2, Out.ok_bind, Out.pure_eq, slice_row _ hbQ]
      rw [← hr, hrow, lowerBound_ok (hP.sorted b)]
      simp only [Out.ok_bind]
      rw [insAt_flatten _ hbQ (by rw [← hr, hrow]; exact List.Sublist.length_le (List.takeWhile_sublist _))]
      rw [← hr, hrow]; rfl
    have r3 : rd (g1.off.mapIdx fun i o => if a + 1 ≤ i ∧ i < b + 2 then o + 1 else o) (b + 1) =
        .ok (psum P (b + 1) + 1) := by
      apply rd_of_some
      rw [List.getElem?_mapIdx, hoff, offs_getElem? P (by omega)]
      simp; omega
    have w3 : ∀ x, wr (g1.off.mapIdx fun i o => if a + 1 ≤ i ∧ i < b + 2 then o + 1 else o) (b + 1) x = .ok _ :=
      fun x => wr_ok (by simp [hoff]; omega)
    refine ⟨⟨?x2, ?y2⟩, ?m2, ?r12, .inl ?r22⟩
    case m2 =>
      unfold Graph.insert
      simp only [hb, assert_true, hc, hn, decide_false, Out.ok_bind, Bool.false_eq_true, if_false, Bool.not_false,
        if_true, hord, hmx', hg1, hset, hadd, hset2, r3, w3, Out.pure_eq]
      rw [addOff_ok (by simp [hoff]; omega) (Nat.le_refl _), Out.ok_bind]
    case r12 => simp only [insRows, hPd, hmx, hmn, Bool.false_eq_true, if_false]
    case r22 =>
      simp only [insRows, hPd, hmx, hmn, Bool.false_eq_true, if_false]
      rw [offs_eq_iff]
      refine ⟨by simp [hoff], ?_⟩
      intro i hi
      rw [List.length_set, List.length_set] at hi
      rw [List.getElem?_mapIdx, List.getElem?_set, List.getElem?_mapIdx, hoff, offs_getElem? P hi]
      rw [psum_set _ hbQ, psum_set P ha, ← row_of_lt hbQ, hrow, ← row_of_lt ha, length_sins, length_sins]
      have e1 := psum_succ P ha
      have e2 := psum_succ P hPl
      rw [← row_of_lt ha] at e1
      rw [← row_of_lt hPl] at e2
      have e3 : a + 1 ≤ i → psum P (a + 1) ≤ psum P i := fun h => psum_mono P h
      have e4 : b + 1 ≤ i → psum P (b + 1) ≤ psum P i := fun h => psum_mono P h
      have e5 : psum P (a + 1) ≤ psum P b := psum_mono P (by omega)
      by_cases hib : b + 1 = i
      · subst hib
        simp [hoff]
        refine ⟨hPl, ?_⟩
        rw [if_neg (by omega), if_neg (by omega)]
        omega
      · simp only [hib, if_false, Option.map_some, List.length_set, List.length_mapIdx, offs_length]
        congr 1
        split <;> split <;> split <;> try split
        all_goals omega

theorem Rep.insert_exit {g : Graph} {d : Bool} {e : Edge} (hne : e.1 = e.2) : g.insert d e = .exit 1 := by
  simp [Graph.insert, hne]

end Graph
end Disa
