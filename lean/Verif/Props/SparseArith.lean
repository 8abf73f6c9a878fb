import Verif.Props.Sparse

/-!
# Properties C33 to C36: arithmetic of sparse matrices
-/

namespace Disa.Props

open Disa Spec Sparse

variable {α : Type}

/-! ### C33 -/

section
variable [Zero α] [Add α] [Neg α] [Mul α] [Div α]

/-- What should be stored after an addition or subtraction, for elements `a` and `b` at the same place. -/
def combined (isAdd : Bool) : Option α → Option α → Option α
  | some a, some b => some (if isAdd then a + b else a + -b)
  | some a, none => some a
  | none, some b => some (if isAdd then b else -b)
  | none, none => none

omit [Mul α] [Div α] [Zero α] in
theorem joinOpt_combined (isAdd : Bool) (a b : Option α) :
    joinOpt (fun a b => a + signed isAdd b) (signed isAdd) a b = combined isAdd a b := by
  cases a <;> cases b <;> cases isAdd <;> rfl

/-- C33, stored elements, for any scalars whatever their arithmetic: after `A += B` or `A -= B` each place holds the
combination of the elements that were there. -/
theorem c33_elements (m o : Sparse α) (hm : Built false m) (ho : Built false o) (isAdd : Bool)
    (hr : m.sizeRow = o.sizeRow) (hc : m.colSize = o.colSize) :
    ∃ m', m.arith isAdd (some o) = .ok m' ∧ m'.sizeRow = m.sizeRow ∧ m'.colSize = m.colSize ∧
      ∀ i j a b, i < m.sizeRow → Spec.lookup m i j = .ok a → Spec.lookup o i j = .ok b →
        Spec.lookup m' i j = .ok (combined isAdd a b) := by
  obtain ⟨L, h1, h2, h3, h4⟩ := inv_built hm
  obtain ⟨M, k1, k2, k3, k4⟩ := inv_built ho
  rw [h1.sizeRow, k1.sizeRow] at hr
  obtain ⟨m', h5, h6, h7⟩ := h1.arith h2 k1 k2 k3 hr hc isAdd
  have hlen : (arithRows isAdd L M).length = L.length := by simp [arithRows]
  refine ⟨m', h5, by rw [h6.sizeRow, h1.sizeRow, hlen], h7 (k4 rfl), ?_⟩
  intro i j a b hi ha hb
  rw [h1.sizeRow] at hi
  rw [lookup_ok h1 hi, Out.ok.injEq] at ha
  rw [lookup_ok k1 (by omega), Out.ok.injEq] at hb
  rw [lookup_ok h6 (by omega), entry_arithRows isAdd h2 k2 hr, ha, hb, joinOpt_combined]

/-- C33, the same object on both sides, for any scalars. -/
theorem c33_elements_self (m : Sparse α) (hm : Built false m) (isAdd : Bool) :
    ∃ m', m.arith isAdd none = .ok m' ∧ m'.sizeRow = m.sizeRow ∧ m'.colSize = m.colSize ∧
      ∀ i j a, i < m.sizeRow → Spec.lookup m i j = .ok a → Spec.lookup m' i j = .ok (combined isAdd a a) := by
  obtain ⟨L, h1, h2, h3, h4⟩ := inv_built hm
  obtain ⟨m', h5, h6, h7⟩ := h1.arith_self isAdd
  have hlen : (selfRows isAdd L).length = L.length := by simp [selfRows]
  refine ⟨m', h5, by rw [h6.sizeRow, h1.sizeRow, hlen], h7, ?_⟩
  intro i j a hi ha
  rw [h1.sizeRow] at hi
  rw [lookup_ok h1 hi, Out.ok.injEq] at ha
  rw [lookup_ok h6 (by omega), entry_selfRows, ha]
  cases a <;> cases isAdd <;> rfl

omit [Mul α] [Div α] in
/-- C33: unequal sizes exit. -/
theorem c33_sizes (m o : Sparse α) (isAdd : Bool) (h : m.sizeRow ≠ o.sizeRow ∨ m.colSize ≠ o.colSize) :
    m.arith isAdd (some o) = .exit 1 ∧ Sparse.add m o = .exit 1 ∧ Sparse.sub m o = .exit 1 := by
  have hf : (m.sizeRow == o.sizeRow && m.colSize == o.colSize) = false := by
    rcases h with h | h <;> simp [h]
  have ha : ∀ b, m.arith b (some o) = .exit 1 := by
    intro b
    unfold Sparse.arith
    simp only [operand, Option.getD_some, hf]
    rfl
  refine ⟨ha _, ?_, ha _⟩
  unfold Sparse.add
  rw [hf]
  rfl

omit [Mul α] [Div α] in
/-- `A + B` and `A - B` are the updates of a copy. -/
theorem c33_operators (m o : Sparse α) (hr : m.sizeRow = o.sizeRow) (hc : m.colSize = o.colSize) :
    Sparse.add m o = m.arith true (some o) ∧ Sparse.sub m o = m.arith false (some o) := by
  refine ⟨?_, rfl⟩
  unfold Sparse.add
  simp [hr, hc]

end

theorem shows_lookup [Zero α] {m : Sparse α} {L : Rows α} (h : m.Rep L) {r c : Nat} {f : Nat → Nat → α} :
    Shows m r c f ↔ L.length = r ∧ m.colSize = c ∧ ∀ i j, i < r → j < c → (entry L i j).getD 0 = f i j := by
  unfold Shows
  rw [h.sizeRow]
  refine and_congr_right fun hr => and_congr_right fun _ => ?_
  refine forall_congr' fun i => forall_congr' fun j => imp_congr_right fun hi => imp_congr_right fun _ => ?_
  unfold val
  rw [lookup_ok h (by omega)]
  simp

/-- Each matrix represents some matrix. -/
theorem built_shows [Zero α] [Add α] [Neg α] [Mul α] [Div α] {z : Bool} (m : Sparse α) (h : Built z m) :
    ∃ f, Shows m m.sizeRow m.colSize f := by
  obtain ⟨L, h1, _⟩ := inv_built h
  exact ⟨fun i j => (entry L i j).getD 0, (shows_lookup h1).mpr ⟨h1.sizeRow.symm, rfl, fun _ _ _ _ => rfl⟩⟩

variable [CommRing α] [Div α]

theorem combined_getD (isAdd : Bool) (a b : Option α) :
    (combined isAdd a b).getD 0 = if isAdd then a.getD 0 + b.getD 0 else a.getD 0 - b.getD 0 := by
  cases a <;> cases b <;> cases isAdd <;> simp [combined, sub_eq_add_neg]

/-- C33: after `A += B` the matrix represents the sum, after `A -= B` the difference, and the stored places are those of
either operand. -/
theorem c33_arithmetic (m o : Sparse α) (hm : Built false m) (ho : Built false o) (isAdd : Bool) (r c : Nat)
    (A B : Nat → Nat → α) (hA : Shows m r c A) (hB : Shows o r c B) :
    ∃ m', m.arith isAdd (some o) = .ok m' ∧ Built false m' ∧
      Shows m' r c (fun i j => if isAdd then A i j + B i j else A i j - B i j) ∧
      ∀ i j, i < r → ∀ a b, m.contains i j = .ok a → o.contains i j = .ok b → m'.contains i j = .ok (a || b) := by
  obtain ⟨m', h5, h6, h7, h8⟩ := c33_elements m o hm ho isAdd (hA.1.trans hB.1.symm) (hA.2.1.trans hB.2.1.symm)
  have hb := Built.arith hm ho h5
  obtain ⟨L, h1, h2, h3, h4⟩ := inv_built hm
  obtain ⟨M, k1, k2, k3, k4⟩ := inv_built ho
  obtain ⟨N, n1, n2, n3, n4⟩ := inv_built hb
  have hAl := (shows_lookup h1).mp hA
  have hBl := (shows_lookup k1).mp hB
  have hNr : N.length = r := by rw [← n1.sizeRow, h6, h1.sizeRow, hAl.1]
  have key : ∀ i j, i < r → entry N i j = combined isAdd (entry L i j) (entry M i j) := by
    intro i j hi
    have := h8 i j _ _ (by rw [h1.sizeRow, hAl.1]; exact hi) (lookup_ok h1 (by omega) j) (lookup_ok k1 (by omega) j)
    rwa [lookup_ok n1 (by omega), Out.ok.injEq] at this
  refine ⟨m', h5, hb, (shows_lookup n1).mpr ⟨hNr, by rw [h7, hA.2.1], ?_⟩, ?_⟩
  · intro i j hi hj
    rw [key i j hi, combined_getD, hAl.2.2 i j hi hj, hBl.2.2 i j hi hj]
  · intro i j hi a b ha hb
    have hiL : i < L.length := by omega
    have hiM : i < M.length := by omega
    have hiN : i < N.length := by omega
    rw [h1.contains hiL, Out.ok.injEq] at ha
    rw [k1.contains hiM, Out.ok.injEq] at hb
    rw [n1.contains hiN, Out.ok.injEq, ← ha, ← hb, ← Bool.decide_or]
    congr 1
    rw [← row_of_lt hiL, ← row_of_lt hiM, ← row_of_lt hiN, mem_keys_iff, mem_keys_iff, mem_keys_iff, key i j hi]
    cases entry L i j <;> cases entry M i j <;> simp [combined]

/-- C33, the same object on both sides: `A += A` doubles, `A -= A` leaves stored zeros. -/
theorem c33_self (m : Sparse α) (hm : Built false m) (isAdd : Bool) (r c : Nat) (A : Nat → Nat → α) (hA : Shows m r c A) :
    ∃ m', m.arith isAdd none = .ok m' ∧ Built false m' ∧
      Shows m' r c (fun i j => if isAdd then A i j + A i j else A i j - A i j) ∧
      ∀ i j, i < r → ∀ a, m.contains i j = .ok a → m'.contains i j = .ok a := by
  obtain ⟨m', h5, h6, h7, h8⟩ := c33_elements_self m hm isAdd
  have hb := Built.arithSelf hm h5
  obtain ⟨L, h1, h2, h3, h4⟩ := inv_built hm
  obtain ⟨N, n1, n2, n3, n4⟩ := inv_built hb
  have hAl := (shows_lookup h1).mp hA
  have hNr : N.length = r := by rw [← n1.sizeRow, h6, h1.sizeRow, hAl.1]
  have key : ∀ i j, i < r → entry N i j = combined isAdd (entry L i j) (entry L i j) := by
    intro i j hi
    have := h8 i j _ (by rw [h1.sizeRow, hAl.1]; exact hi) (lookup_ok h1 (by omega) j)
    rwa [lookup_ok n1 (by omega), Out.ok.injEq] at this
  refine ⟨m', h5, hb, (shows_lookup n1).mpr ⟨hNr, by rw [h7, hA.2.1], ?_⟩, ?_⟩
  · intro i j hi hj
    rw [key i j hi, combined_getD, hAl.2.2 i j hi hj]
  · intro i j hi a ha
    have hiL : i < L.length := by omega
    have hiN : i < N.length := by omega
    rw [h1.contains hiL, Out.ok.injEq] at ha
    rw [n1.contains hiN, Out.ok.injEq, ← ha]
    congr 1
    rw [← row_of_lt hiL, ← row_of_lt hiN, mem_keys_iff, mem_keys_iff, key i j hi]
    cases entry L i j <;> simp [combined]

/-! ### C34 -/

open Finset in
theorem sum_lookup {β : Type} (g : Nat → β → α) {l : List (Nat × β)} (hs : (keys l).Pairwise (· < ·)) {n : Nat} (hb : ∀ x ∈ l, x.1 < n) :
    (l.map fun x => g x.1 x.2).sum = ∑ k ∈ range n, ((l.lookup k).map (g k)).getD 0 := by
  induction l with
  | nil => simp
  | cons x l ih =>
    simp only [keys, List.map_cons, List.pairwise_cons] at hs
    have hnone : l.lookup x.1 = none := by
      rw [lookup_eq_none]
      intro h
      have := hs.1 _ h
      omega
    rw [List.map_cons, List.sum_cons, ih hs.2 (fun y hy => hb y (by simp [hy]))]
    have hx : x.1 ∈ range n := Finset.mem_range.mpr (hb x (by simp))
    rw [← Finset.add_sum_erase _ _ hx, ← Finset.add_sum_erase (range n) (fun k => (((x :: l).lookup k).map (g k)).getD 0) hx]
    rw [hnone, lookup_cons', if_pos rfl]
    simp only [Option.map_none, Option.getD_none, zero_add, Option.map_some, Option.getD_some]
    congr 1
    apply Finset.sum_congr rfl
    intro k hk
    have hne := (Finset.mem_erase.mp hk).1
    rw [lookup_cons', if_neg hne]

theorem sumOpt_getD (l : List α) : (sumOpt l).getD 0 = l.sum := by
  cases l with
  | nil => rfl
  | cons w ws =>
    simp only [sumOpt, Option.getD_some, List.sum_cons]
    induction ws generalizing w with
    | nil => simp
    | cons v ws ih => rw [List.foldl_cons, ih, List.sum_cons, add_assoc]

theorem sum_filterMap {β : Type} (f : β → Option α) (l : List β) : (l.filterMap f).sum = (l.map fun x => (f x).getD 0).sum := by
  induction l with
  | nil => rfl
  | cons x l ih =>
    rw [List.map_cons, List.sum_cons, ← ih]
    cases h : f x with
    | none => rw [List.filterMap_cons_none h]; simp
    | some y => rw [List.filterMap_cons_some h, List.sum_cons]; rfl

/-- C34: `A *= B` and `A * B` represent the matrix product; an element is stored where some product of stored elements
contributes. -/
theorem c34_product (m o : Sparse α) (hm : Built false m) (ho : Built false o) (r n c : Nat) (A B : Nat → Nat → α)
    (hA : Shows m r n A) (hB : Shows o n c B) :
    ∃ m', m.mul (some o) = .ok m' ∧ Sparse.product m o = .ok m' ∧ Built false m' ∧
      Shows m' r c (fun i j => ∑ k ∈ Finset.range n, A i k * B k j) ∧
      ∀ i j, i < r → (m'.contains i j = .ok true ↔ ∃ k, m.contains i k = .ok true ∧ k < n ∧ o.contains k j = .ok true) := by
  obtain ⟨L, h1, h2, h3, h4⟩ := inv_built hm
  obtain ⟨M, k1, k2, k3, k4⟩ := inv_built ho
  have hAl := (shows_lookup h1).mp hA
  have hBl := (shows_lookup k1).mp hB
  have hsz : m.colSize = M.length := by rw [hAl.2.1, hBl.1]
  obtain ⟨m', h5, h6⟩ := h1.mul k1 k3 (by rw [← hsz]; exact h4 rfl) hsz
  have hlen : ((terms L M).foldl accRows (List.replicate L.length [])).length = r := by rw [h6.len, hAl.1]
  have hmem : ∀ {s : Sparse α} {K : Rows α} (_ : s.Rep K) (i j : Nat), i < K.length →
      (s.contains i j = .ok true ↔ entry K i j ≠ none) := by
    intro s K hs i j hi
    rw [hs.contains hi, Out.ok.injEq, decide_eq_true_iff, ← row_of_lt hi, mem_keys_iff]
  refine ⟨m', h5, h5, Built.mul hm ho h5, (shows_lookup h6.rep).mpr ⟨hlen, by rw [h6.col (k4 rfl), hBl.2.1], ?_⟩, ?_⟩
  · intro i j hi hj
    rw [entry_terms k2, sumOpt_getD]
    unfold prods
    rw [sum_filterMap]
    have := sum_lookup (fun k x => ((entry M k j).map (x * ·)).getD 0) (h2 i) (n := n)
      (fun x hx => by rw [← hAl.2.1]; exact h4 rfl i x hx)
    rw [this]
    apply Finset.sum_congr rfl
    intro k hk
    have hk := Finset.mem_range.mp hk
    rw [← hAl.2.2 i k hi hk, ← hBl.2.2 k j hk hj]
    unfold entry
    cases (row L i).lookup k <;> cases (row M k).lookup j <;> simp
  · intro i j hi
    rw [hmem h6.rep i j (by omega), entry_terms k2]
    have hs : ∀ l : List α, sumOpt l ≠ none ↔ l ≠ [] := by intro l; cases l <;> simp [sumOpt]
    rw [hs]
    constructor
    · intro hne
      obtain ⟨w, hw⟩ := List.exists_mem_of_ne_nil _ hne
      unfold prods at hw
      obtain ⟨x, hx, hw⟩ := List.mem_filterMap.mp hw
      have hxn : x.1 < n := by rw [← hAl.2.1]; exact h4 rfl i x hx
      refine ⟨x.1, (hmem h1 i x.1 (by omega)).mpr ?_, hxn, (hmem k1 x.1 j (by omega)).mpr ?_⟩
      · rw [← mem_keys_iff]; exact List.mem_map_of_mem hx
      · intro h; rw [h] at hw; simp at hw
    · rintro ⟨k, hk1, hkn, hk2⟩ hnil
      rw [hmem h1 i k (by omega), ← mem_keys_iff] at hk1
      rw [hmem k1 k j (by omega)] at hk2
      obtain ⟨x, hx, rfl⟩ := List.mem_map.mp hk1
      obtain ⟨y, hy⟩ := Option.ne_none_iff_exists'.mp hk2
      have : x.2 * y ∈ prods L M i j := by
        unfold prods
        exact List.mem_filterMap.mpr ⟨x, hx, by rw [hy]; rfl⟩
      rw [hnil] at this
      simp at this

omit [CommRing α] [Div α] in
/-- C34: mismatching inner sizes exit. -/
theorem c34_sizes [Zero α] [Add α] [Mul α] (m o : Sparse α) (h : m.colSize ≠ o.sizeRow) :
    m.mul (some o) = .exit 1 ∧ Sparse.product m o = .exit 1 := by
  have : m.mul (some o) = .exit 1 := by
    unfold Sparse.mul
    have hf : (m.colSize == o.sizeRow) = false := by simpa using h
    simp only [operand, Option.getD_some, hf]
    rfl
  exact ⟨this, this⟩

/-! ### C35 -/

/-- C35 as stated in the properties file. -/
def C35 : Prop := ∀ (m : Sparse Rat) (n : Nat) (A : Nat → Nat → Rat), Built false m → Shows m n n A →
  ∃ m', m.mul none = .ok m' ∧ Shows m' n n (fun i j => ∑ k ∈ Finset.range n, A i k * A k j)

omit [CommRing α] [Div α] in
/-- C35, what happens instead: `A *= A` gives a matrix without elements. -/
theorem c35_self [Zero α] [Add α] [Neg α] [Mul α] [Div α] (m : Sparse α) (hm : Built false m) (h : m.sizeRow = m.colSize) :
    ∃ m', m.mul none = .ok m' ∧ m'.sizeRow = m.sizeRow ∧ m'.colSize = m.colSize ∧ m'.sizeNonZero = 0 ∧
      ∀ i j, i < m.sizeRow → Spec.lookup m' i j = .ok none := by
  obtain ⟨L, h1, h2, h3, h4⟩ := inv_built hm
  have hsz : m.colSize = L.length := by rw [← h, h1.sizeRow]
  obtain ⟨m', h5, h6, h7⟩ := h1.mul_self (by rw [← hsz]; exact h4 rfl) hsz
  refine ⟨m', h5, by rw [h6.sizeRow, h1.sizeRow, List.length_replicate], by rw [h7, hsz], ?_, ?_⟩
  · unfold Sparse.sizeNonZero
    rw [h6.cols, List.flatten_replicate_nil]; rfl
  · intro i j hi
    rw [lookup_ok h6 (by rw [List.length_replicate, ← h1.sizeRow]; exact hi)]
    unfold entry
    rw [row_replicate_nil]; rfl

/-- C35, the part that holds: the result is right exactly when the square is the zero matrix. -/
theorem c35_partial (m : Sparse α) (hm : Built false m) (n : Nat) (A : Nat → Nat → α) (hA : Shows m n n A) :
    (∃ m', m.mul none = .ok m' ∧ Shows m' n n (fun i j => ∑ k ∈ Finset.range n, A i k * A k j)) ↔
      ∀ i j, i < n → j < n → ∑ k ∈ Finset.range n, A i k * A k j = 0 := by
  obtain ⟨m', h1, h2, h3, _, h4⟩ := c35_self m hm (by rw [hA.1, hA.2.1])
  have hval : ∀ i j, i < n → val m' i j = .ok 0 := by
    intro i j hi
    unfold val
    rw [h4 i j (by rw [hA.1]; exact hi)]; rfl
  constructor
  · rintro ⟨m1, h5, h6⟩ i j hi hj
    rw [h1, Out.ok.injEq] at h5
    subst h5
    have := h6.2.2 i j hi hj
    rw [hval i j hi, Out.ok.injEq] at this
    exact this.symm
  · intro h
    refine ⟨m', h1, by rw [h2, hA.1], by rw [h3, hA.2.1], ?_⟩
    intro i j hi hj
    rw [hval i j hi]
    exact congrArg Out.ok (h i j hi hj).symm

/-- The 1 by 1 matrix with element 2. -/
def two : Sparse Rat := ⟨[0, 1], [0], [2], 1⟩

theorem two_built : Built false two :=
  Built.ofLists (nz := [0, 1]) (ix := [0]) (vs := [2]) (c := 1) (by decide) (by decide) (by decide +kernel)

theorem two_shows : Shows two 1 1 (fun _ _ => 2) :=
  ⟨rfl, rfl, fun i j hi hj => by
    have : i = 0 := by omega
    have : j = 0 := by omega
    subst_vars
    decide +kernel⟩

theorem c35_violated : ¬ C35 := by
  intro h
  have := (c35_partial two two_built 1 _ two_shows).mp (h two 1 _ two_built two_shows) 0 0 (by decide) (by decide)
  simp at this

example : ∃ m', two.mul (some two) = .ok m' ∧ Shows m' 1 1 (fun _ _ => 4) := by
  obtain ⟨m', h1, _, _, h2, _⟩ := c34_product two two two_built two_built 1 1 1 _ _ two_shows two_shows
  refine ⟨m', h1, ?_⟩
  have e : (fun _ _ => ∑ _ ∈ Finset.range 1, (2 : Rat) * 2 : Nat → Nat → Rat) = fun _ _ => 4 := by
    funext _ _; norm_num
  rwa [e] at h2

/-! ### C36 -/

/-- C36: the matrix vector product, for vectors with a dynamic size and, if the matrix is square, also for those with a
static size. -/
theorem c36_matvec (m : Sparse α) (hm : Built false m) (r c : Nat) (A : Nat → Nat → α) (hA : Shows m r c A) (static : Bool)
    (x : List α) (hx : x.length = c) (hs : static = true → r = c) :
    ∃ y, m.mulVec static x = .ok y ∧ y.length = r ∧
      ∀ i, i < r → y[i]? = some (∑ k ∈ Finset.range c, A i k * x.getD k 0) := by
  obtain ⟨L, h1, h2, h3, h4⟩ := inv_built hm
  have hAl := (shows_lookup h1).mp hA
  have := h1.mulVec (h4 rfl) (x := x) (by rw [hAl.2.1, hx]) (static := static) (by
    cases static with
    | false => exact .inl rfl
    | true => right; right; rw [hAl.1, hx]; exact hs rfl)
  refine ⟨_, this, by simp [hAl.1], ?_⟩
  intro i hi
  rw [List.getElem?_map, List.getElem?_range (by omega), Option.map_some, Option.some.injEq]
  have hfold : ∀ (l : List (Nat × α)) (z : α), l.foldl (fun v e => v + e.2 * x.getD e.1 0) z =
      z + (l.map fun e => e.2 * x.getD e.1 0).sum := by
    intro l
    induction l with
    | nil => intro z; simp
    | cons e l ih => intro z; rw [List.foldl_cons, ih, List.map_cons, List.sum_cons, add_assoc]
  unfold dotL
  rw [hfold, zero_add]
  have := sum_lookup (fun k a => a * x.getD k 0) (h2 i) (n := c) (fun e he => by rw [← hAl.2.1]; exact h4 rfl i e he)
  rw [this]
  apply Finset.sum_congr rfl
  intro k hk
  have hk := Finset.mem_range.mp hk
  rw [← hAl.2.2 i k hi hk]
  unfold entry
  cases (row L i).lookup k <;> simp

omit [CommRing α] [Div α] in
/-- C36: other sizes exit, and so does a vector with a static size if the matrix is not square. -/
theorem c36_sizes [Zero α] [Add α] [Mul α] (m : Sparse α) (x : List α) (static : Bool)
    (h : m.colSize ≠ x.length ∨ (static = true ∧ x.length ≠ 0 ∧ m.sizeRow ≠ x.length)) : m.mulVec static x = .exit 1 := by
  unfold Sparse.mulVec
  by_cases h1 : m.colSize = x.length
  · rcases h with h | ⟨h2, h3, h4⟩
    · exact absurd h1 h
    · have : (!static || x.length == 0 || m.sizeRow == x.length) = false := by simp [h2, h3, h4]
      rw [this, h1]
      simp only [beq_self_eq_true, assert_true, Out.ok_bind]
      rfl
  · have : (m.colSize == x.length) = false := by simpa using h1
    rw [this]; rfl

theorem getD_lin (a b : α) (x y : List α) (h : x.length = y.length) (k : Nat) :
    (List.zipWith (fun u v => a * u + b * v) x y).getD k 0 = a * x.getD k 0 + b * y.getD k 0 := by
  by_cases hk : k < x.length
  · have : k < y.length := by omega
    simp [hk, this]
  · have hz : (List.zipWith (fun u v => a * u + b * v) x y).length ≤ k := by simp; omega
    rw [List.getD_eq_getElem?_getD, List.getD_eq_getElem?_getD, List.getD_eq_getElem?_getD, List.getElem?_eq_none hz,
      List.getElem?_eq_none (show x.length ≤ k by omega), List.getElem?_eq_none (show y.length ≤ k by omega)]
    simp

theorem list_ext_some {β : Type} {x y : List β} {n : Nat} (hx : x.length = n) (hy : y.length = n)
    (h : ∀ i, i < n → x[i]? = y[i]?) : x = y := by
  apply List.ext_getElem?
  intro i
  by_cases hi : i < n
  · exact h i hi
  · rw [List.getElem?_eq_none (by omega), List.getElem?_eq_none (by omega)]

/-- C36: the product is linear in the vector. -/
theorem c36_linear (m : Sparse α) (hm : Built false m) (x y : List α) (hx : x.length = m.colSize) (hy : y.length = m.colSize)
    (a b : α) : ∃ u v, m.mulVec false x = .ok u ∧ m.mulVec false y = .ok v ∧
      m.mulVec false (List.zipWith (fun s t => a * s + b * t) x y) = .ok (List.zipWith (fun s t => a * s + b * t) u v) := by
  obtain ⟨L, h1, _⟩ := inv_built hm
  let A := fun i j => (entry L i j).getD 0
  have hA : Shows m m.sizeRow m.colSize A := (shows_lookup h1).mpr ⟨h1.sizeRow.symm, rfl, fun _ _ _ _ => rfl⟩
  obtain ⟨u, hu1, hu2, hu3⟩ := c36_matvec m hm _ _ A hA false x hx (by simp)
  obtain ⟨v, hv1, hv2, hv3⟩ := c36_matvec m hm _ _ A hA false y hy (by simp)
  obtain ⟨w, hw1, hw2, hw3⟩ := c36_matvec m hm _ _ A hA false (List.zipWith (fun s t => a * s + b * t) x y)
    (by simp; omega) (by simp)
  refine ⟨u, v, hu1, hv1, ?_⟩
  rw [hw1, Out.ok.injEq]
  refine list_ext_some hw2 (by simp; omega) ?_
  intro i hi
  rw [hw3 i hi, List.getElem?_zipWith, hu3 i hi, hv3 i hi]
  simp only [Option.some.injEq]
  rw [Finset.mul_sum, Finset.mul_sum, ← Finset.sum_add_distrib]
  apply Finset.sum_congr rfl
  intro k _
  rw [getD_lin a b x y (by omega)]
  ring

/-- C36: the product distributes over the addition and subtraction of matrices. -/
theorem c36_distributes (m o m' : Sparse α) (hm : Built false m) (ho : Built false o) (isAdd : Bool)
    (hs : m.arith isAdd (some o) = .ok m') (x : List α) (hx : x.length = m.colSize) :
    ∃ u v, m.mulVec false x = .ok u ∧ o.mulVec false x = .ok v ∧
      m'.mulVec false x = .ok (List.zipWith (fun s t => if isAdd then s + t else s - t) u v) := by
  have hsz : m.sizeRow = o.sizeRow ∧ m.colSize = o.colSize := by
    by_contra hc
    rw [(c33_sizes m o isAdd (by omega)).1] at hs
    cases hs
  obtain ⟨A, hA⟩ := built_shows m hm
  obtain ⟨B, hB⟩ := built_shows o ho
  rw [← hsz.1, ← hsz.2] at hB
  obtain ⟨m1, h1, h2, h3, _⟩ := c33_arithmetic m o hm ho isAdd _ _ A B hA hB
  rw [hs, Out.ok.injEq] at h1
  subst h1
  obtain ⟨u, hu1, hu2, hu3⟩ := c36_matvec m hm _ _ A hA false x hx (by simp)
  obtain ⟨v, hv1, hv2, hv3⟩ := c36_matvec o ho _ _ B hB false x hx (by simp)
  obtain ⟨w, hw1, hw2, hw3⟩ := c36_matvec m' h2 _ _ _ h3 false x hx (by simp)
  refine ⟨u, v, hu1, hv1, ?_⟩
  rw [hw1, Out.ok.injEq]
  refine list_ext_some hw2 (by simp; omega) ?_
  intro i hi
  rw [hw3 i hi, List.getElem?_zipWith, hu3 i hi, hv3 i hi]
  simp only [Option.some.injEq]
  cases isAdd
  · simp only [Bool.false_eq_true, if_false]
    rw [← Finset.sum_sub_distrib]
    exact Finset.sum_congr rfl fun k _ => by ring
  · simp only [if_true]
    rw [← Finset.sum_add_distrib]
    exact Finset.sum_congr rfl fun k _ => by ring

example : two.mulVec true [3] = .ok [6] := by decide +kernel

end Disa.Props
