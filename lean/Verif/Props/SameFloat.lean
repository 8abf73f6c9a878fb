import Verif.Props.NormFloat
import Verif.Props.SparseArith
import Verif.Props.Dense

/-!
# C129: sparse and dense matrices of doubles

The sparse operators skip elements that are not stored; the dense ones compute with zeros.  With doubles both give the same
numbers, not only nearly the same.
-/

namespace Disa.Props

open Disa Disa.Dense Disa.Num Disa.Spec Disa.Sparse

/-! ### Dense products for any scalars -/

section any

variable {α : Type} [Zero α] [Add α] [Mul α]

theorem foldl_ofFn {β σ : Type} {n : Nat} (f : σ → β → σ) (g : Nat → β) (s : σ) :
    (List.ofFn fun i : Fin n => g i.1).foldl f s = (List.range n).foldl (fun s k => f s (g k)) s := by
  have : (List.ofFn fun i : Fin n => g i.1) = (List.range n).map g := by
    apply List.ext_getElem <;> simp
  rw [this, List.foldl_map]

theorem dot_fold {n : Nat} (x y : Fin n → α) :
    dot (vec x) (vec y) = .ok ((List.ofFn fun i => (x i, y i)).foldl (fun v p => v + p.1 * p.2) 0) := by
  unfold dot innerProduct
  simp only [vec_length, beq_self_eq_true, assert_true, Out.ok_bind, Nat.le_refl, if_true]
  have : (vec x).zip (vec y) = List.ofFn fun i => (x i, y i) := by
    apply List.ext_getElem <;> simp [vec]
  rw [this]

theorem dot_range {n : Nat} (x y : Nat → α) :
    dot (vec fun i : Fin n => x i) (vec fun i : Fin n => y i) = .ok ((List.range n).foldl (fun v k => v + x k * y k) 0) := by
  rw [dot_fold, foldl_ofFn (fun v (p : α × α) => v + p.1 * p.2) (fun k => (x k, y k))]

theorem dot_partialSum {r n c : Nat} (A : Fin r → Fin n → α) (B : Fin n → Fin c → α) (i : Fin r) (j : Fin c) :
    dot (vec (A i)) (vec fun k => B k j) = .ok (partialSum (Nat.le_refl n) A B n i j) := by
  rw [dot_fold]
  have key : ∀ k (hk : k ≤ n), ((List.ofFn fun l : Fin k => (A i (l.castLE hk), B (l.castLE hk) j)).foldl (fun v p => v + p.1 * p.2) 0) =
      partialSum (Nat.le_refl n) A B k i j := by
    intro k
    induction k with
    | zero => intro _; rfl
    | succ k ih =>
      intro hk
      rw [partialSum_succ _ _ _ k hk, ← ih (by omega), List.ofFn_succ', List.concat_eq_append, List.foldl_append]
      rfl
  rw [← key n le_rfl]
  rfl

/-- C129: each element of a product of matrices of any scalars is the inner product of a row and a column, rounding errors
included. -/
theorem c129_dense {d e : Dims} {r n c : Nat} (hd : SizedMat d r n) (he : SizedMat e n c)
    (hde : d = none ∨ e = none ∨ (r = n ∧ n = c)) (A : Fin r → Fin n → α) (B : Fin n → Fin c → α) :
    ∃ P : Fin r → Fin c → α, matMul d e (mat A) (mat B) = .ok (mat P) ∧
      ∀ i j, dot (vec (A i)) (vec fun k => B k j) = .ok (P i j) := by
  refine ⟨partialSum (Nat.le_refl n) A B n, ?_, dot_partialSum A B⟩
  have hr := sizedMat_none hd
  have hn := sizedMat_none he
  unfold matMul
  simp only [sizeColumn_mat hr, mat_length, beq_self_eq_true, assert_true, Out.ok_bind]
  by_cases hdem : demote d e = none
  · rw [hdem, matOf_ok (d := none) hr A (fun i j => rd2_mat _ i.2 j.2), Out.ok_bind]
    unfold mulAssign
    simp only [Option.isSome_none, Option.getD_some, Bool.false_eq_true, if_false, sizeColumn_mat hr, sizeColumn_mat hn,
      mat_length, beq_self_eq_true, assert_true, Out.ok_bind, zeros_eq]
    rw [mulLoops (Nat.le_refl n) A B]
  · rcases hde with rfl | rfl | ⟨rfl, rfl⟩
    · exact absurd rfl hdem
    · exact absurd (by cases d <;> rfl) hdem
    · have : SizedMat (demote d e) r r := by
        rcases d with _ | d <;> rcases e with _ | e
        · exact absurd rfl hdem
        · exact absurd rfl hdem
        · exact absurd rfl hdem
        · obtain ⟨h1, h2, h3, h4⟩ := hd
          obtain ⟨h5, h6, h7, h8⟩ := he
          unfold demote
          simp_all [SizedMat]
      rw [matOf_ok this A (fun i j => rd2_mat _ i.2 j.2), Out.ok_bind]
      have hsome : (demote d e).isSome = true := by cases h : demote d e <;> simp_all
      unfold mulAssign
      simp only [hsome, Option.getD_some, if_true, sizeColumn_mat hr, mat_length, sameSize_eq, assert_true, Out.ok_bind, zeros_eq]
      rw [mulLoops (Nat.le_refl _) A B]

end any

/-! ### Adding zeros -/

/-- Doubles, infinities and NaN: the numbers that operators return. -/
def Result (v : Num binary64) : Prop := ∀ q : ℚ, v = fin q → binary64 q = .fin q

theorem result_round (q : ℚ) : Result (binary64 q : Num binary64) := fun _ h => binary64_idem h

theorem result_add (v w : Num binary64) : Result (v + w) := by
  rcases v with _ | s | q <;> rcases w with _ | s' | q'
  case fin.fin => exact result_round _
  all_goals
    intro p hp
    have : Fl.add binary64 _ _ = Fl.fin p := hp
    simp only [Fl.add] at this
    first | cases this | (split at this <;> cases this)

theorem result_add_zero {v : Num binary64} (h : Result v) : v + 0 = v := by
  rcases v with _ | s | q
  case fin =>
    show binary64 (q + 0) = .fin q
    rw [add_zero]
    exact h q rfl
  all_goals rfl

theorem result_zero_add {v : Num binary64} (h : Result v) : 0 + v = v := by
  rcases v with _ | s | q
  case fin =>
    show binary64 (0 + q) = .fin q
    rw [zero_add]
    exact h q rfl
  all_goals rfl

theorem result_zero : Result 0 := by
  intro q h
  have : (0 : ℚ) = q := fin_inj.mp h
  subst this
  decide +kernel

theorem zero_mul_fin (q : ℚ) : (0 : Num binary64) * fin q = 0 := by
  show binary64 (0 * q) = .fin 0
  rw [zero_mul]
  decide +kernel

theorem fin_mul_zero (q : ℚ) : (fin q : Num binary64) * 0 = 0 := by
  show binary64 (q * 0) = .fin 0
  rw [mul_zero]
  decide +kernel

/-- Sums over the elements that are stored are sums over all columns. -/
theorem foldl_lookup {β : Type} (g : Nat → β → Num binary64) (n : Nat) : ∀ (a : Nat) (l : List (Nat × β)) (v : Num binary64),
    (keys l).Pairwise (· < ·) → (∀ x ∈ l, a ≤ x.1 ∧ x.1 < a + n) → Result v →
    l.foldl (fun v e => v + g e.1 e.2) v =
      (List.range' a n).foldl (fun v k => v + ((l.lookup k).map (g k)).getD 0) v := by
  induction n with
  | zero =>
    intro a l v _ hb _
    cases l with
    | nil => rfl
    | cons x l =>
      have := hb x (by simp)
      omega
  | succ n ih =>
    intro a l v hs hb hv
    rw [List.range'_succ, List.foldl_cons]
    cases l with
    | nil =>
      have := ih (a + 1) [] v hs (by simp) hv
      simp only [List.lookup_nil, Option.map_none, Option.getD_none] at this ⊢
      rw [result_add_zero hv, ← this]
    | cons x l =>
      simp only [keys, List.map_cons, List.pairwise_cons] at hs
      have hlow : ∀ y ∈ l, x.1 < y.1 := fun y hy => hs.1 _ (List.mem_map_of_mem hy)
      have hx := hb x (by simp)
      by_cases hxa : x.1 = a
      · have h1 : ((x :: l).lookup a) = some x.2 := by rw [lookup_cons', if_pos hxa.symm]
        rw [List.foldl_cons, h1, Option.map_some, Option.getD_some, ← hxa,
          ih (x.1 + 1) l _ hs.2 (fun y hy => ?_) (result_add _ _)]
        · apply List.foldl_ext
          intro v k hk
          have hk := (List.mem_range'_1.mp hk).1
          rw [lookup_cons', if_neg (by omega)]
        · have h2 := hlow y hy
          have h3 := hb y (by simp [hy])
          omega
      · have h1 : ((x :: l).lookup a) = none := by
          rw [List.lookup_eq_none_iff]
          intro y hy
          rw [bne_iff_ne]
          have : a < y.1 := by
            rcases List.mem_cons.mp hy with rfl | hy
            · omega
            · have := hlow y hy
              omega
          omega
        rw [h1, Option.map_none, Option.getD_none, result_add_zero hv]
        refine ih (a + 1) (x :: l) v (by simpa [keys] using hs) (fun y hy => ?_) hv
        have h3 := hb y hy
        rcases List.mem_cons.mp hy with rfl | hy
        · omega
        · have := hlow y hy
          omega

/-! ### C129 -/

/-- C129: the product of a sparse matrix and a vector consists of the inner products of its rows, zeros included, with the vector. -/
theorem c129_vector (m : Sparse (Num binary64)) (hm : Built false m) {r c : Nat} (A : Nat → Nat → ℚ)
    (hA : Shows m r c fun i j => fin (A i j)) (x : Nat → ℚ) (static : Bool) (hs : static = false ∨ c = 0 ∨ r = c) :
    ∃ y : Fin r → Num binary64, m.mulVec static (vec fun j : Fin c => fin (x j)) = .ok (vec y) ∧
      ∀ i : Fin r, dot (vec fun j : Fin c => (fin (A i j) : Num binary64)) (vec fun j : Fin c => fin (x j)) = .ok (y i) := by
  obtain ⟨L, h1, h2, h3, h4⟩ := inv_built hm
  obtain ⟨hr, hc, hv⟩ := (shows_lookup h1).mp hA
  subst hr hc
  refine ⟨fun i => dotL (row L i) (vec fun j : Fin m.colSize => fin (x j)), ?_, fun i => ?_⟩
  · rw [h1.mulVec (h4 rfl) (by simp) (by simpa using hs)]
    congr 1
    apply List.ext_getElem <;> simp [vec]
  · rw [dot_range (fun j => (fin (A i j) : Num binary64)) (fun j => fin (x j))]
    congr 1
    show _ = (row L i).foldl (fun v e => v + e.2 * (vec fun j : Fin m.colSize => (fin (x j) : Num binary64)).getD e.1 0) 0
    rw [foldl_lookup (fun k a => a * (vec fun j : Fin m.colSize => (fin (x j) : Num binary64)).getD k 0) m.colSize 0 _ _ (h2 i)
      (fun e he => ⟨Nat.zero_le _, by rw [zero_add]; exact h4 rfl i e he⟩) result_zero, ← List.range_eq_range']
    apply List.foldl_ext
    intro v k hk
    have hk := List.mem_range.mp hk
    have hx : (vec fun j : Fin m.colSize => (fin (x j) : Num binary64)).getD k 0 = fin (x k) := by simp [vec, hk]
    rw [hx, ← hv i k i.2 hk]
    unfold entry
    cases (row L i).lookup k with
    | none => rw [Option.getD_none, zero_mul_fin]; rfl
    | some a => rfl

theorem foldl_filterMap {β : Type} (f : β → Option (Num binary64)) (l : List β) (v : Num binary64) (hv : Result v) :
    (l.filterMap f).foldl (· + ·) v = l.foldl (fun v x => v + (f x).getD 0) v := by
  induction l generalizing v with
  | nil => rfl
  | cons x l ih =>
    rw [List.foldl_cons]
    cases h : f x with
    | none => rw [List.filterMap_cons_none h, Option.getD_none, result_add_zero hv, ih v hv]
    | some y => rw [List.filterMap_cons_some h, List.foldl_cons, ih _ (result_add _ _), Option.getD_some]

theorem sumOpt_fold (l : List (Num binary64)) (h : ∀ v ∈ l, Result v) : (sumOpt l).getD 0 = l.foldl (· + ·) 0 := by
  cases l with
  | nil => rfl
  | cons w ws => rw [List.foldl_cons, result_zero_add (h w (by simp))]; rfl

theorem result_mul (v w : Num binary64) : Result (v * w) := by
  rcases v with _ | s | q <;> rcases w with _ | s' | q'
  case fin.fin => exact result_round _
  all_goals
    intro p hp
    have : Fl.mul binary64 _ _ = Fl.fin p := hp
    simp only [Fl.mul] at this
    first | cases this | (split at this <;> cases this)

/-- C129: the product of two sparse matrices has the same elements as the product of the two dense matrices. -/
theorem c129_product (m o : Sparse (Num binary64)) (hm : Built false m) (ho : Built false o) {r n c : Nat} (A B : Nat → Nat → ℚ)
    (hA : Shows m r n fun i j => fin (A i j)) (hB : Shows o n c fun i j => fin (B i j)) :
    ∃ m' P, Sparse.product m o = .ok m' ∧ Built false m' ∧ Shows m' r c P ∧
      (∀ i j, i < r → j < c → dot (vec fun k : Fin n => (fin (A i k) : Num binary64)) (vec fun k : Fin n => fin (B k j)) = .ok (P i j)) ∧
      ((r = 0 → n = 0) → (n = 0 → c = 0) →
        matMul none none (mat fun (i : Fin r) (k : Fin n) => (fin (A i k) : Num binary64)) (mat fun (k : Fin n) (j : Fin c) => fin (B k j)) =
          .ok (mat fun (i : Fin r) (j : Fin c) => P i j)) := by
  obtain ⟨L, h1, h2, h3, h4⟩ := inv_built hm
  obtain ⟨M, k1, k2, k3, k4⟩ := inv_built ho
  have hAl := (shows_lookup h1).mp hA
  have hBl := (shows_lookup k1).mp hB
  have hsz : m.colSize = M.length := by rw [hAl.2.1, hBl.1]
  obtain ⟨m', h5, h6⟩ := h1.mul k1 k3 (by rw [← hsz]; exact h4 rfl) hsz
  have hlen : ((terms L M).foldl accRows (List.replicate L.length [])).length = r := by rw [h6.len, hAl.1]
  have hdot : ∀ i j, i < r → j < c →
      dot (vec fun k : Fin n => (fin (A i k) : Num binary64)) (vec fun k : Fin n => fin (B k j)) = .ok ((sumOpt (prods L M i j)).getD 0) := by
    intro i j hi hj
    rw [dot_range (fun k => (fin (A i k) : Num binary64)) (fun k => fin (B k j))]
    congr 1
    rw [sumOpt_fold _ (fun v hv => by
      unfold prods at hv
      obtain ⟨x, -, hx⟩ := List.mem_filterMap.mp hv
      obtain ⟨y, -, rfl⟩ := Option.map_eq_some_iff.mp hx
      exact result_mul _ _)]
    unfold prods
    rw [foldl_filterMap _ _ _ result_zero,
      foldl_lookup (fun k a => ((entry M k j).map (a * ·)).getD 0) n 0 _ _ (h2 i)
        (fun e he => ⟨Nat.zero_le _, by rw [zero_add, ← hAl.2.1]; exact h4 rfl i e he⟩) result_zero, ← List.range_eq_range']
    apply List.foldl_ext
    intro v k hk
    have hk := List.mem_range.mp hk
    have ha := hAl.2.2 i k hi hk
    have hb := hBl.2.2 k j hk hj
    rw [← ha, ← hb]
    have ha' : entry L i k = (row L i).lookup k := rfl
    rw [ha'] at ha ⊢
    cases h : (row L i).lookup k with
    | none =>
      rw [hb, Option.getD_none, zero_mul_fin]; rfl
    | some a =>
      rw [h, Option.getD_some] at ha
      cases h' : entry M k j with
      | none => rw [ha, Option.getD_some, Option.getD_none, fin_mul_zero]; rfl
      | some b => rfl
  refine ⟨m', fun i j => (sumOpt (prods L M i j)).getD 0, h5, Built.mul hm ho h5,
    (shows_lookup h6.rep).mpr ⟨hlen, by rw [h6.col (k4 rfl), hBl.2.1], fun i j _ _ => by rw [entry_terms k2]⟩, hdot, ?_⟩
  intro hr hn
  obtain ⟨P, h7, h8⟩ := c129_dense (d := none) (e := none) hr hn (.inl rfl)
    (fun (i : Fin r) (k : Fin n) => (fin (A i k) : Num binary64)) (fun (k : Fin n) (j : Fin c) => fin (B k j))
  rw [h7]
  congr 2
  funext i j
  have := (h8 i j).symm.trans (hdot i j i.2 j.2)
  exact Out.ok.inj this

theorem double_neg {q : ℚ} (h : binary64 q = .fin q) : binary64 (-q) = .fin (-q) := by
  have h1 := near_of_double h
  rw [binary64_near] at h
  split at h
  · rename_i hb
    have hn := near64_neg q h1
    rw [binary64_near, hn, abs_neg, if_pos (by rwa [h1] at hb)]
  · cases h

theorem arith_same (m o : Sparse (Num binary64)) (hm : Built false m) (ho : Built false o) (isAdd : Bool) {r c : Nat}
    (A B : Nat → Nat → ℚ) (hA : Shows m r c fun i j => fin (A i j)) (hB : Shows o r c fun i j => fin (B i j))
    (hA' : ∀ i j, i < r → j < c → binary64 (A i j) = .fin (A i j)) (hB' : ∀ i j, i < r → j < c → binary64 (B i j) = .fin (B i j)) :
    ∃ m', m.arith isAdd (some o) = .ok m' ∧ Built false m' ∧
      Shows m' r c fun i j => if isAdd then fin (A i j) + fin (B i j) else fin (A i j) - fin (B i j) := by
  obtain ⟨m', h5, h6, h7, h8⟩ := c33_elements m o hm ho isAdd (hA.1.trans hB.1.symm) (hA.2.1.trans hB.2.1.symm)
  have hb := Built.arith hm ho h5
  obtain ⟨L, h1, h2, h3, h4⟩ := inv_built hm
  obtain ⟨M, k1, k2, k3, k4⟩ := inv_built ho
  obtain ⟨N, n1, n2, n3, n4⟩ := inv_built hb
  have hAl := (shows_lookup h1).mp hA
  have hBl := (shows_lookup k1).mp hB
  have hNr : N.length = r := by rw [← n1.sizeRow, h6, h1.sizeRow, hAl.1]
  refine ⟨m', h5, hb, (shows_lookup n1).mpr ⟨hNr, by rw [h7, hA.2.1], fun i j hi hj => ?_⟩⟩
  have := h8 i j _ _ (by rw [h1.sizeRow, hAl.1]; exact hi) (lookup_ok h1 (by omega) j) (lookup_ok k1 (by omega) j)
  rw [lookup_ok n1 (by omega), Out.ok.injEq] at this
  rw [this]
  have ha := hAl.2.2 i j hi hj
  have hb := hBl.2.2 i j hi hj
  have hz : (fin 0 : Num binary64) = 0 := rfl
  have rA : Result (fin (A i j)) := fun q hq => by rw [← fin_inj.mp hq]; exact hA' i j hi hj
  have rB : Result (fin (B i j)) := fun q hq => by rw [← fin_inj.mp hq]; exact hB' i j hi hj
  have hsub : ∀ p q : ℚ, @Eq (Num binary64) (fin p - fin q) (binary64 (p - q)) := fun p q => by
    show binary64 (p + -q) = _
    rw [sub_eq_add_neg]
  have hneg : ∀ q : ℚ, -(fin q : Num binary64) = fin (-q) := fun q => rfl
  have hadd : ∀ p q : ℚ, @Eq (Num binary64) (fin p + fin q) (binary64 (p + q)) := fun p q => rfl
  cases h : entry L i j with
  | none =>
    rw [h, Option.getD_none, ← hz] at ha
    cases h' : entry M i j with
    | none =>
      rw [h', Option.getD_none, ← hz] at hb
      rw [← ha, ← hb]
      cases isAdd <;> decide +kernel
    | some b =>
      rw [h', Option.getD_some] at hb
      subst hb
      rw [← ha]
      cases isAdd
      · show -(fin (B i j) : Num binary64) = fin 0 - fin (B i j)
        rw [hsub, hneg, zero_sub, double_neg (hB' i j hi hj)]
        rfl
      · show (fin (B i j) : Num binary64) = 0 + fin (B i j)
        rw [result_zero_add rB]
  | some a =>
    rw [h, Option.getD_some] at ha
    subst ha
    cases h' : entry M i j with
    | none =>
      rw [h', Option.getD_none, ← hz] at hb
      rw [← hb]
      cases isAdd
      · show (fin (A i j) : Num binary64) = fin (A i j) - fin 0
        rw [hsub, sub_zero, hA' i j hi hj]
        rfl
      · show (fin (A i j) : Num binary64) = fin (A i j) + 0
        rw [result_add_zero rA]
    | some b =>
      rw [h', Option.getD_some] at hb
      subst hb
      cases isAdd
      · show (fin (A i j) : Num binary64) + -fin (B i j) = fin (A i j) - fin (B i j)
        rw [hneg, hadd, hsub, sub_eq_add_neg]
      · rfl

/-- C129: sums and differences of sparse matrices of doubles have the same elements as those of the dense matrices. -/
theorem c129_sum (m o : Sparse (Num binary64)) (hm : Built false m) (ho : Built false o) {r c : Nat} (hr : r = 0 → c = 0)
    (A B : Nat → Nat → ℚ) (hA : Shows m r c fun i j => fin (A i j)) (hB : Shows o r c fun i j => fin (B i j))
    (hA' : ∀ i j, i < r → j < c → binary64 (A i j) = .fin (A i j)) (hB' : ∀ i j, i < r → j < c → binary64 (B i j) = .fin (B i j)) :
    (∃ m' P, Sparse.add m o = .ok m' ∧ Built false m' ∧ Shows m' r c P ∧
      matAdd none none (mat fun (i : Fin r) (j : Fin c) => (fin (A i j) : Num binary64)) (mat fun (i : Fin r) (j : Fin c) => fin (B i j)) =
        .ok (mat fun (i : Fin r) (j : Fin c) => P i j)) ∧
    ∃ m' P, Sparse.sub m o = .ok m' ∧ Built false m' ∧ Shows m' r c P ∧
      matSub none none (mat fun (i : Fin r) (j : Fin c) => (fin (A i j) : Num binary64)) (mat fun (i : Fin r) (j : Fin c) => fin (B i j)) =
        .ok (mat fun (i : Fin r) (j : Fin c) => P i j) := by
  obtain ⟨o1, o2⟩ := c33_operators m o (hA.1.trans hB.1.symm) (hA.2.1.trans hB.2.1.symm)
  obtain ⟨m1, p1, p2, p3⟩ := arith_same m o hm ho true A B hA hB hA' hB'
  obtain ⟨m2, q1, q2, q3⟩ := arith_same m o hm ho false A B hA hB hA' hB'
  exact ⟨⟨m1, _, o1.trans p1, p2, p3, matAdd_ok (d := none) (e := none) hr hr _ _⟩,
    ⟨m2, _, o2.trans q1, q2, q3, matSub_ok (d := none) (e := none) hr hr _ _⟩⟩

/-- The doubles nearest to 0.1 and 0.3. -/
def tenth : Num binary64 := fin (3602879701896397 / 2 ^ 55)
def threeTenths : Num binary64 := fin (5404319552844595 / 2 ^ 54)

/-- The diagonal matrix with the doubles nearest to 0.1 and 0.3. -/
def tenths : Sparse (Num binary64) := ⟨[0, 1, 2], [0, 1], [tenth, threeTenths], 2⟩

/-- The matrix is one that programs can build, and its elements are doubles. -/
example : Built false tenths ∧ ∃ A : Nat → Nat → ℚ, (Shows tenths 2 2 fun i j => fin (A i j)) ∧
    ∀ i j, i < 2 → j < 2 → binary64 (A i j) = .fin (A i j) := by
  refine ⟨Built.ofLists (nz := [0, 1, 2]) (ix := [0, 1]) (vs := [tenth, threeTenths]) (c := 2)
    (by decide) (by decide) (by decide +kernel), fun i j => if i = 0 ∧ j = 0 then 3602879701896397 / 2 ^ 55 else
    if i = 1 ∧ j = 1 then 5404319552844595 / 2 ^ 54 else 0, ⟨rfl, rfl, ?_⟩, ?_⟩
  all_goals
    intro i j hi hj
    obtain rfl | rfl : i = 0 ∨ i = 1 := by omega
    all_goals
      obtain rfl | rfl : j = 0 ∨ j = 1 := by omega
      all_goals decide +kernel

/-- Infinite elements of the vector reach only the rows with a stored element in their column; the dense product is NaN in all. -/
example : tenths.mulVec false [(show Num binary64 from .inf false), fin 1] = .ok [(show Num binary64 from .inf false), threeTenths] ∧
    Dense.matVec 0 0 [[tenth, fin 0], [fin 0, threeTenths]] [(show Num binary64 from .inf false), fin 1] =
      .ok [(show Num binary64 from .inf false), (show Num binary64 from .nan)] := by
  constructor <;> decide +kernel

end Disa.Props
