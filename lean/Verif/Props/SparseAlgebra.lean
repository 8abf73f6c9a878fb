import Verif.Props.SparseArith
import Verif.Scalar.Float
import Mathlib.Algebra.BigOperators.Group.Finset.Sigma

/-!
# C130: laws of sparse sums and products

Not only the represented matrices but also the places of the stored elements agree on both sides of the laws.
-/

namespace Disa.Props

open Disa Disa.Spec Disa.Sparse

variable {α : Type}

/-- The matrices have the same sizes and the same stored elements. -/
def Same (m o : Sparse α) : Prop :=
  m.sizeRow = o.sizeRow ∧ m.colSize = o.colSize ∧ m.sizeNonZero = o.sizeNonZero ∧
    ∀ i j, i < m.sizeRow → Spec.lookup m i j = Spec.lookup o i j

theorem row_of_lookups {r s : List (Nat × α)} (hr : (keys r).Pairwise (· < ·)) (hs : (keys s).Pairwise (· < ·))
    (h : ∀ k, r.lookup k = s.lookup k) : r = s := by
  induction r generalizing s with
  | nil =>
    cases s with
    | nil => rfl
    | cons y s =>
      have := h y.1
      rw [lookup_cons', if_pos rfl] at this
      simp at this
  | cons x r ih =>
    cases s with
    | nil =>
      have := h x.1
      rw [lookup_cons', if_pos rfl] at this
      simp at this
    | cons y s =>
      simp only [keys, List.map_cons, List.pairwise_cons] at hr hs
      have hnone : ∀ {l : List (Nat × α)} {k a : Nat}, (∀ z ∈ l.map (·.1), a < z) → k ≤ a → l.lookup k = none := by
        intro l k a hl hk
        rw [List.lookup_eq_none_iff]
        intro p hp
        have := hl p.1 (List.mem_map_of_mem hp)
        rw [bne_iff_ne]
        omega
      have hk : x.1 = y.1 := by
        rcases Nat.lt_trichotomy x.1 y.1 with hlt | heq | hlt
        · have := h x.1
          rw [lookup_cons', if_pos rfl, lookup_cons', if_neg (by omega), hnone hs.1 (by omega)] at this
          cases this
        · exact heq
        · have := h y.1
          rw [lookup_cons', if_neg (by omega), hnone hr.1 (by omega), lookup_cons', if_pos rfl] at this
          cases this
      have hv : x.2 = y.2 := by
        have := h x.1
        rw [lookup_cons', if_pos rfl, lookup_cons', if_pos hk] at this
        exact Option.some.inj this
      have hxy : x = y := Prod.ext hk hv
      subst hxy
      congr 1
      apply ih hr.2 hs.2
      intro k
      by_cases hkx : k = x.1
      · rw [hnone hr.1 (by omega), hnone hs.1 (by omega)]
      · have := h k
        rwa [lookup_cons', if_neg hkx, lookup_cons', if_neg hkx] at this

section any

variable [Zero α] [Add α] [Neg α] [Mul α] [Div α]

theorem same_of_lookup {m o : Sparse α} (hm : Built false m) (ho : Built false o) (hr : m.sizeRow = o.sizeRow)
    (hc : m.colSize = o.colSize) (h : ∀ i j, i < m.sizeRow → Spec.lookup m i j = Spec.lookup o i j) : Same m o := by
  refine ⟨hr, hc, ?_, h⟩
  obtain ⟨L, h1, h2, h3, h4⟩ := inv_built hm
  obtain ⟨M, k1, k2, k3, k4⟩ := inv_built ho
  have hlen : L.length = M.length := by rw [← h1.sizeRow, hr, k1.sizeRow]
  have : L = M := by
    refine List.ext_getElem hlen (fun i hi hi' => ?_)
    rw [← row_of_lt hi, ← row_of_lt hi']
    refine row_of_lookups (h2 i) (k2 i) (fun k => ?_)
    have := h i k (by rw [h1.sizeRow]; exact hi)
    rw [lookup_ok h1 hi, lookup_ok k1 hi', Out.ok.injEq] at this
    exact this
  subst this
  unfold Sparse.sizeNonZero
  rw [h1.cols, k1.cols]

/-- C130: sums of two matrices do not depend on their order, for all scalars whose addition does not, doubles among them. -/
theorem c130_add_comm (hadd : ∀ a b : α, a + b = b + a) (m o : Sparse α) (hm : Built false m) (ho : Built false o)
    (hr : m.sizeRow = o.sizeRow) (hc : m.colSize = o.colSize) :
    ∃ s t, Sparse.add m o = .ok s ∧ Sparse.add o m = .ok t ∧ Same s t := by
  obtain ⟨s, h1, h2, h3, h4⟩ := c33_elements m o hm ho true hr hc
  obtain ⟨t, k1, k2, k3, k4⟩ := c33_elements o m ho hm true hr.symm hc.symm
  refine ⟨s, t, (c33_operators m o hr hc).1.trans h1, (c33_operators o m hr.symm hc.symm).1.trans k1, ?_⟩
  refine same_of_lookup (.arith hm ho h1) (.arith ho hm k1) (by rw [h2, k2, hr]) (by rw [h3, k3, hc]) (fun i j hi => ?_)
  obtain ⟨L, l1, -⟩ := inv_built hm
  obtain ⟨M, l2, -⟩ := inv_built ho
  rw [h2] at hi
  have e1 := lookup_ok l1 (i := i) (by rw [← l1.sizeRow]; exact hi) j
  have e2 := lookup_ok l2 (i := i) (by rw [← l2.sizeRow, ← hr]; exact hi) j
  rw [h4 i j _ _ hi e1 e2, k4 i j _ _ (by rw [← hr]; exact hi) e2 e1]
  cases entry L i j <;> cases entry M i j <;> simp [combined, hadd]

end any

section ring

variable [CommRing α] [Div α]

theorem contains_ok {m : Sparse α} (hm : Built false m) {i : Nat} (hi : i < m.sizeRow) (j : Nat) : ∃ b, m.contains i j = .ok b := by
  obtain ⟨L, h1, -⟩ := inv_built hm
  exact ⟨_, h1.contains (by rw [← h1.sizeRow]; exact hi) j⟩

/-- Matrices with the same sizes, values and places. -/
theorem same_of_shows {m o : Sparse α} (hm : Built false m) (ho : Built false o) {r c : Nat} {f : Nat → Nat → α}
    (h : Shows m r c f) (h' : Shows o r c f)
    (hp : ∀ i j, i < r → (m.contains i j = .ok true ↔ o.contains i j = .ok true)) : Same m o := by
  refine same_of_lookup hm ho (h.1.trans h'.1.symm) (h.2.1.trans h'.2.1.symm) (fun i j hi => ?_)
  obtain ⟨L, h1, h2, h3, h4⟩ := inv_built hm
  obtain ⟨M, k1, k2, k3, k4⟩ := inv_built ho
  have hl := (shows_lookup h1).mp h
  have kl := (shows_lookup k1).mp h'
  rw [h.1] at hi
  have hiL : i < L.length := by rw [hl.1]; exact hi
  have hiM : i < M.length := by rw [kl.1]; exact hi
  rw [lookup_ok h1 hiL, lookup_ok k1 hiM]
  have hp := hp i j hi
  rw [h1.contains hiL, k1.contains hiM, Out.ok.injEq, Out.ok.injEq, decide_eq_true_iff, decide_eq_true_iff, ← row_of_lt hiL,
    ← row_of_lt hiM, mem_keys_iff, mem_keys_iff] at hp
  change (entry L i j ≠ none ↔ entry M i j ≠ none) at hp
  congr 1
  have hnone : ∀ {s : Sparse α} {K : Rows α}, Bounded s.colSize K → s.colSize = c → ¬ j < c → entry K i j = none := by
    intro s K hb hs hj
    by_contra hne
    have : j ∈ keys (row K i) := mem_keys_iff.mpr hne
    obtain ⟨x, hx, rfl⟩ := List.mem_map.mp this
    have := hb i x hx
    omega
  by_cases hj : j < c
  · have hv := (hl.2.2 i j hi hj).trans (kl.2.2 i j hi hj).symm
    cases h5 : entry L i j <;> cases h6 : entry M i j
    · rfl
    · rw [h5, h6] at hp; simp at hp
    · rw [h5, h6] at hp; simp at hp
    · rw [h5, h6] at hv; simpa using hv
  · rw [hnone (h4 rfl) h.2.1 hj, hnone (k4 rfl) h'.2.1 hj]

theorem add_full (m o : Sparse α) (hm : Built false m) (ho : Built false o) {r c : Nat} {A B : Nat → Nat → α}
    (hA : Shows m r c A) (hB : Shows o r c B) :
    ∃ s, Sparse.add m o = .ok s ∧ Built false s ∧ Shows s r c (fun i j => A i j + B i j) ∧
      ∀ i j, i < r → (s.contains i j = .ok true ↔ m.contains i j = .ok true ∨ o.contains i j = .ok true) := by
  obtain ⟨s, h1, h2, h3, h4⟩ := c33_arithmetic m o hm ho true r c A B hA hB
  refine ⟨s, (c33_operators m o (hA.1.trans hB.1.symm) (hA.2.1.trans hB.2.1.symm)).1.trans h1, h2, by simpa using h3, fun i j hi => ?_⟩
  obtain ⟨a, ha⟩ := contains_ok hm (i := i) (by rw [hA.1]; exact hi) j
  obtain ⟨b, hb⟩ := contains_ok ho (i := i) (by rw [hB.1]; exact hi) j
  rw [h4 i j hi a b ha hb, ha, hb]
  cases a <;> cases b <;> simp

/-- C130: addition is associative. -/
theorem c130_add_assoc (a b c : Sparse α) (ha : Built false a) (hb : Built false b) (hc : Built false c)
    (h1 : a.sizeRow = b.sizeRow ∧ a.colSize = b.colSize) (h2 : b.sizeRow = c.sizeRow ∧ b.colSize = c.colSize) :
    ∃ ab s bc t, Sparse.add a b = .ok ab ∧ Sparse.add ab c = .ok s ∧ Sparse.add b c = .ok bc ∧ Sparse.add a bc = .ok t ∧ Same s t := by
  obtain ⟨A, hA⟩ := built_shows a ha
  obtain ⟨B, hB⟩ := built_shows b hb
  obtain ⟨C, hC⟩ := built_shows c hc
  rw [← h1.1, ← h1.2] at hB
  rw [← h2.1, ← h2.2, ← h1.1, ← h1.2] at hC
  obtain ⟨ab, e1, f1, g1, p1⟩ := add_full a b ha hb hA hB
  obtain ⟨s, e2, f2, g2, p2⟩ := add_full ab c f1 hc g1 hC
  obtain ⟨bc, e3, f3, g3, p3⟩ := add_full b c hb hc hB hC
  obtain ⟨t, e4, f4, g4, p4⟩ := add_full a bc ha f3 hA g3
  refine ⟨ab, s, bc, t, e1, e2, e3, e4, same_of_shows f2 f4 g2 (by simpa only [add_assoc] using g4) (fun i j hi => ?_)⟩
  rw [p2 i j hi, p4 i j hi, p1 i j hi, p3 i j hi, or_assoc]

/-- C130: multiplication is associative. -/
theorem c130_mul_assoc (a b c : Sparse α) (ha : Built false a) (hb : Built false b) (hc : Built false c)
    (h1 : a.colSize = b.sizeRow) (h2 : b.colSize = c.sizeRow) :
    ∃ ab s bc t, Sparse.product a b = .ok ab ∧ Sparse.product ab c = .ok s ∧ Sparse.product b c = .ok bc ∧
      Sparse.product a bc = .ok t ∧ Same s t := by
  obtain ⟨A, hA⟩ := built_shows a ha
  obtain ⟨B, hB⟩ := built_shows b hb
  obtain ⟨C, hC⟩ := built_shows c hc
  rw [h1] at hA
  rw [h2] at hB
  obtain ⟨ab, -, e1, f1, g1, p1⟩ := c34_product a b ha hb _ _ _ A B hA hB
  obtain ⟨s, -, e2, f2, g2, p2⟩ := c34_product ab c f1 hc _ _ _ _ C g1 hC
  obtain ⟨bc, -, e3, f3, g3, p3⟩ := c34_product b c hb hc _ _ _ B C hB hC
  obtain ⟨t, -, e4, f4, g4, p4⟩ := c34_product a bc ha f3 _ _ _ A _ hA g3
  refine ⟨ab, s, bc, t, e1, e2, e3, e4, same_of_shows f2 f4 g2 ⟨g4.1, g4.2.1, fun i j hi hj => ?_⟩ (fun i j hi => ?_)⟩
  · rw [g4.2.2 i j hi hj]
    congr 1
    simp only [Finset.mul_sum, Finset.sum_mul]
    rw [Finset.sum_comm]
    refine Finset.sum_congr rfl fun k _ => Finset.sum_congr rfl fun l _ => ?_
    ring
  · rw [p2 i j hi, p4 i j hi]
    constructor
    · rintro ⟨k, hk1, hk2, hk3⟩
      obtain ⟨l, hl1, hl2, hl3⟩ := (p1 i k hi).mp hk1
      exact ⟨l, hl1, hl2, (p3 l j hl2).mpr ⟨k, hl3, hk2, hk3⟩⟩
    · rintro ⟨l, hl1, hl2, hl3⟩
      obtain ⟨k, hk1, hk2, hk3⟩ := (p3 l j hl2).mp hl3
      exact ⟨k, (p1 i k hi).mpr ⟨l, hl1, hl2, hk1⟩, hk2, hk3⟩

/-- C130: multiplication distributes over addition, from both sides. -/
theorem c130_distrib (a b c : Sparse α) (ha : Built false a) (hb : Built false b) (hc : Built false c)
    (h2 : b.sizeRow = c.sizeRow ∧ b.colSize = c.colSize) :
    (a.colSize = b.sizeRow → ∃ bc s ab ac t, Sparse.add b c = .ok bc ∧ Sparse.product a bc = .ok s ∧ Sparse.product a b = .ok ab ∧
      Sparse.product a c = .ok ac ∧ Sparse.add ab ac = .ok t ∧ Same s t) ∧
    (b.colSize = a.sizeRow → ∃ bc s ba ca t, Sparse.add b c = .ok bc ∧ Sparse.product bc a = .ok s ∧ Sparse.product b a = .ok ba ∧
      Sparse.product c a = .ok ca ∧ Sparse.add ba ca = .ok t ∧ Same s t) := by
  obtain ⟨A, hA⟩ := built_shows a ha
  obtain ⟨B, hB⟩ := built_shows b hb
  obtain ⟨C, hC⟩ := built_shows c hc
  rw [← h2.1, ← h2.2] at hC
  obtain ⟨bc, e3, f3, g3, p3⟩ := add_full b c hb hc hB hC
  constructor
  · intro h1
    rw [h1] at hA
    obtain ⟨s, -, e4, f4, g4, p4⟩ := c34_product a bc ha f3 _ _ _ A _ hA g3
    obtain ⟨ab, -, e1, f1, g1, p1⟩ := c34_product a b ha hb _ _ _ A B hA hB
    obtain ⟨ac, -, e2, f2, g2, p2⟩ := c34_product a c ha hc _ _ _ A C hA hC
    obtain ⟨t, e5, f5, g5, p5⟩ := add_full ab ac f1 f2 g1 g2
    refine ⟨bc, s, ab, ac, t, e3, e4, e1, e2, e5, same_of_shows f4 f5 g4 ⟨g5.1, g5.2.1, fun i j hi hj => ?_⟩ (fun i j hi => ?_)⟩
    · rw [g5.2.2 i j hi hj]
      congr 1
      refine Finset.sum_add_distrib.symm.trans ?_
      exact Finset.sum_congr rfl fun k _ => (mul_add _ _ _).symm
    · rw [p4 i j hi, p5 i j hi, p1 i j hi, p2 i j hi]
      constructor
      · rintro ⟨k, hk1, hk2, hk3⟩
        rcases (p3 k j hk2).mp hk3 with h | h
        · exact .inl ⟨k, hk1, hk2, h⟩
        · exact .inr ⟨k, hk1, hk2, h⟩
      · rintro (⟨k, hk1, hk2, hk3⟩ | ⟨k, hk1, hk2, hk3⟩)
        · exact ⟨k, hk1, hk2, (p3 k j hk2).mpr (.inl hk3)⟩
        · exact ⟨k, hk1, hk2, (p3 k j hk2).mpr (.inr hk3)⟩
  · intro h1
    rw [← h1] at hA
    obtain ⟨s, -, e4, f4, g4, p4⟩ := c34_product bc a f3 ha _ _ _ _ A g3 hA
    obtain ⟨ba, -, e1, f1, g1, p1⟩ := c34_product b a hb ha _ _ _ B A hB hA
    obtain ⟨ca, -, e2, f2, g2, p2⟩ := c34_product c a hc ha _ _ _ C A hC hA
    obtain ⟨t, e5, f5, g5, p5⟩ := add_full ba ca f1 f2 g1 g2
    refine ⟨bc, s, ba, ca, t, e3, e4, e1, e2, e5, same_of_shows f4 f5 g4 ⟨g5.1, g5.2.1, fun i j hi hj => ?_⟩ (fun i j hi => ?_)⟩
    · rw [g5.2.2 i j hi hj]
      congr 1
      refine Finset.sum_add_distrib.symm.trans ?_
      exact Finset.sum_congr rfl fun k _ => (add_mul _ _ _).symm
    · rw [p4 i j hi, p5 i j hi, p1 i j hi, p2 i j hi]
      constructor
      · rintro ⟨k, hk1, hk2, hk3⟩
        rcases (p3 i k hi).mp hk1 with h | h
        · exact .inl ⟨k, h, hk2, hk3⟩
        · exact .inr ⟨k, h, hk2, hk3⟩
      · rintro (⟨k, hk1, hk2, hk3⟩ | ⟨k, hk1, hk2, hk3⟩)
        · exact ⟨k, (p3 i k hi).mpr (.inl hk1), hk2, hk3⟩
        · exact ⟨k, (p3 i k hi).mpr (.inr hk1), hk2, hk3⟩

/-- C130: the product of a product and a vector is that of the first matrix and the product of the second one and the vector. -/
theorem c130_vector (a b : Sparse α) (ha : Built false a) (hb : Built false b) (h1 : a.colSize = b.sizeRow) (x : List α)
    (hx : x.length = b.colSize) :
    ∃ ab y z, Sparse.product a b = .ok ab ∧ b.mulVec false x = .ok y ∧ a.mulVec false y = .ok z ∧ ab.mulVec false x = .ok z := by
  obtain ⟨A, hA⟩ := built_shows a ha
  obtain ⟨B, hB⟩ := built_shows b hb
  rw [h1] at hA
  obtain ⟨ab, -, e1, f1, g1, p1⟩ := c34_product a b ha hb _ _ _ A B hA hB
  obtain ⟨y, y1, y2, y3⟩ := c36_matvec b hb _ _ B hB false x hx (by simp)
  obtain ⟨z, z1, z2, z3⟩ := c36_matvec a ha _ _ A hA false y y2 (by simp)
  obtain ⟨w, w1, w2, w3⟩ := c36_matvec ab f1 _ _ _ g1 false x hx (by simp)
  refine ⟨ab, y, z, e1, y1, z1, ?_⟩
  rw [w1, Out.ok.injEq]
  refine list_ext_some w2 z2 (fun i hi => ?_)
  rw [w3 i hi, z3 i hi, Option.some.injEq]
  have : ∀ k ∈ Finset.range b.sizeRow, A i k * y.getD k 0 = ∑ l ∈ Finset.range b.colSize, A i k * B k l * x.getD l 0 := by
    intro k hk
    rw [List.getD_eq_getElem?_getD, y3 k (Finset.mem_range.mp hk), Option.getD_some, Finset.mul_sum]
    exact Finset.sum_congr rfl fun l _ => (mul_assoc _ _ _).symm
  rw [Finset.sum_congr rfl this, Finset.sum_comm]
  exact Finset.sum_congr rfl fun l _ => Finset.sum_mul _ _ _

end ring

/-- Sums of doubles do not depend on the order of the two numbers. -/
theorem double_add_comm (a b : Num binary64) : a + b = b + a := by
  rcases a with _ | s | p <;> rcases b with _ | t | q
  case fin.fin =>
    show binary64 (p + q) = binary64 (q + p)
    rw [add_comm]
  all_goals try rfl
  cases s <;> cases t <;> rfl

/-- The hypotheses of the laws hold for a matrix with the elements 2 and 3. -/
example : Built false (⟨[0, 2], [0, 1], [2, 3], 2⟩ : Sparse ℚ) ∧ Built false (⟨[0, 1, 1], [0], [5], 1⟩ : Sparse ℚ) ∧
    Sparse.product (⟨[0, 2], [0, 1], [2, 3], 2⟩ : Sparse ℚ) ⟨[0, 1, 1], [0], [5], 1⟩ = .ok ⟨[0, 1], [0], [10], 1⟩ := by
  refine ⟨Built.ofLists (nz := [0, 2]) (ix := [0, 1]) (vs := [2, 3]) (c := 2) (by decide) (by decide) (by decide +kernel),
    Built.ofLists (nz := [0, 1, 1]) (ix := [0]) (vs := [5]) (c := 1) (by decide) (by decide) (by decide +kernel), by decide +kernel⟩

end Disa.Props
