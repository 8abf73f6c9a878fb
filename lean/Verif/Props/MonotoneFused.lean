import Verif.Props.BoxFused

/-!
# Property C233: Jacobi and Gauss Seidel keep the order of their iterates, whatever operations are fused
-/

namespace Disa.Props

open Disa Spec Dense Num Sparse Iterative Fused

variable {fuse : Hist → Hist → Hist → Bool} {n : Nat}

/-! ### Operations -/

theorem FinF.add_left {a b : Fused binary64 fuse} (h : FinF (a + b)) : FinF a := by
  obtain ⟨q, hq⟩ := h
  obtain ⟨x, _, e, -⟩ := add_fin (rnd := binary64) (a := a.get) (b := b.operand a.hist) hq
  exact ⟨x, e⟩

theorem FinF.add_factor {a m x : Fused binary64 fuse} (h : FinF (a + m * x)) : FinF x := by
  obtain ⟨q, hq⟩ := h
  obtain ⟨_, p, -, e, -⟩ := add_fin (rnd := binary64) (a := a.get) (b := (m * x).operand a.hist) hq
  obtain ⟨_, r, -, e', -⟩ := mul_fin (rnd := if fuse a.hist m.hist x.hist then .fin else binary64) (a := m.get) (b := x.get) e
  exact ⟨r, e'⟩

theorem FinF.mul_right {m x : Fused binary64 fuse} (h : FinF (m * x)) : FinF x := by
  obtain ⟨q, hq⟩ := h
  obtain ⟨_, r, -, e', -⟩ := mul_fin (rnd := binary64) (a := m.get) (b := x.get) hq
  exact ⟨r, e'⟩

theorem FinF.sub_right {a b : Fused binary64 fuse} (hb : b.Stored) (h : FinF (a - b)) : FinF b := by
  obtain ⟨q, hq⟩ := h
  obtain ⟨_, p, -, e, -⟩ := sub_fin (rnd := binary64) (a := a.get) (b := b.operand a.hist) hq
  exact ⟨p, (hb _).symm.trans e⟩

theorem FinF.div_left {a d : Fused binary64 fuse} {k : ℚ} (hd : d.get = .fin k) (hk : k ≠ 0) (h : FinF (a / d)) : FinF a := by
  obtain ⟨q, hq⟩ := h
  have hq' : Fl.div binary64 a.get d.get = .fin q := hq
  rw [hd] at hq'
  obtain ⟨x, e, -⟩ := div_fin (rnd := binary64) hk hq'
  exact ⟨x, e⟩

theorem add_get {v w : Fused binary64 fuse} {x p q : ℚ} (hv : v.get = .fin x) (hw : w.operand v.hist = .fin p)
    (h : binary64 (x + p) = .fin q) : (v + w).get = .fin q := by
  show Fl.add binary64 v.get (w.operand v.hist) = _
  rw [hv, hw]
  exact h

/-- Sums with products whose exact values are ordered. -/
theorem BetweenF.add_mul {a b c m x y z : Fused binary64 fuse} {k l' q' r' : ℚ} (hk : m.get = .fin k) (h : BetweenF a b c)
    (b1 : x.get = .fin l') (b2 : y.get = .fin q') (b3 : z.get = .fin r') (b4 : y.hist = x.hist) (b5 : z.hist = x.hist)
    (m1 : k * l' ≤ k * q') (m2 : k * q' ≤ k * r') (h1 : FinF (a + m * x)) (h2 : FinF (c + m * z)) :
    BetweenF (a + m * x) (b + m * y) (c + m * z) := by
  obtain ⟨l, q, r, a1, a2, a3, k1, k2, a4, a5⟩ := h
  obtain ⟨v, hv⟩ := h1
  obtain ⟨w, hw⟩ := h2
  obtain ⟨l1, p1, e1, e2, e3⟩ := add_fin (rnd := binary64) (a := a.get) (b := (m * x).operand a.hist) hv
  obtain ⟨l2, p2, e4, e5, e6⟩ := add_fin (rnd := binary64) (a := c.get) (b := (m * z).operand c.hist) hw
  have f1 : l1 = l := by
    rw [a1] at e1
    exact (fin_inj.mp e1).symm
  have f2 : l2 = r := by
    rw [a3] at e4
    exact (fin_inj.mp e4).symm
  subst f1 f2
  rw [operand_get hk b1] at e2
  rw [operand_get hk b3, a5, b5] at e5
  obtain ⟨p, hp, c1, c2⟩ : ∃ p, (if fuse a.hist m.hist x.hist then Fl.fin else binary64) (k * q') = .fin p ∧ p1 ≤ p ∧ p ≤ p2 := by
    split at e2
    · rename_i hh
      rw [if_pos hh] at e5 ⊢
      cases e2
      cases e5
      exact ⟨_, rfl, m1, m2⟩
    · rename_i hh
      rw [if_neg hh] at e5 ⊢
      obtain ⟨p, hp⟩ := binary64_squeeze m1 m2 e2 e5
      exact ⟨p, hp, binary64_fin_mono m1 e2 hp, binary64_fin_mono m2 hp e5⟩
  have m3 : l1 + p1 ≤ q + p := by linarith
  have m4 : q + p ≤ l2 + p2 := by linarith
  obtain ⟨z', hz⟩ := binary64_squeeze m3 m4 e3 e6
  refine ⟨v, z', w, hv, add_get a2 ?_ hz, hw, binary64_fin_mono m3 e3 hz, binary64_fin_mono m4 hz e6, ?_, ?_⟩
  · rw [operand_get hk b2, a4, b4]
    exact hp
  · show Hist.op 0 b.hist (.op 2 m.hist y.hist) = .op 0 a.hist (.op 2 m.hist x.hist)
    rw [a4, b4]
  · show Hist.op 0 c.hist (.op 2 m.hist z.hist) = .op 0 a.hist (.op 2 m.hist x.hist)
    rw [a5, b5]

/-- Differences with numbers that are not products. -/
theorem BetweenF.sub_stored {a b c x y z : Fused binary64 fuse} (h : BetweenF a b c) (h' : BetweenF z y x) (hx : x.Stored) (hy : y.Stored)
    (hz : z.Stored) (h1 : FinF (a - x)) (h2 : FinF (c - z)) : BetweenF (a - x) (b - y) (c - z) := by
  obtain ⟨l, q, r, a1, a2, a3, k1, k2, a4, a5⟩ := h
  obtain ⟨l', q', r', b1, b2, b3, k3, k4, b4, b5⟩ := h'
  obtain ⟨v, hv⟩ := h1
  obtain ⟨w, hw⟩ := h2
  have hv' : Fl.sub binary64 a.get (x.operand a.hist) = .fin v := hv
  have hw' : Fl.sub binary64 c.get (z.operand c.hist) = .fin w := hw
  rw [hx, a1, b3] at hv'
  rw [hz, a3, b1] at hw'
  obtain ⟨_, _, e1, e2, e3⟩ := sub_fin (rnd := binary64) (a := .fin l) (b := .fin r') hv'
  obtain ⟨_, _, e4, e5, e6⟩ := sub_fin (rnd := binary64) (a := .fin r) (b := .fin l') hw'
  obtain rfl := fin_inj.mp e1
  obtain rfl := fin_inj.mp e2
  obtain rfl := fin_inj.mp e4
  obtain rfl := fin_inj.mp e5
  have m3 : l - r' ≤ q - q' := by linarith
  have m4 : q - q' ≤ r - l' := by linarith
  obtain ⟨z', hz'⟩ := binary64_squeeze m3 m4 e3 e6
  refine ⟨v, z', w, hv, sub_get a2 ((hy _).trans b2) hz', hw, binary64_fin_mono m3 e3 hz', binary64_fin_mono m4 hz' e6, ?_, ?_⟩
  · show Hist.op 1 b.hist y.hist = .op 1 a.hist x.hist
    rw [a4, b4, b5]
  · show Hist.op 1 c.hist z.hist = .op 1 a.hist x.hist
    rw [a5, b5]

theorem BetweenF.mul_one {m x y z : Fused binary64 fuse} (hm : m.get = .fin 1) (h : BetweenF x y z) (h1 : FinF (m * x)) (h2 : FinF (m * z)) :
    BetweenF (m * x) (m * y) (m * z) := by
  obtain ⟨l, q, r, a1, a2, a3, k1, k2, a4, a5⟩ := h
  obtain ⟨v, hv⟩ := h1
  obtain ⟨w, hw⟩ := h2
  have hv' : Fl.mul binary64 m.get x.get = .fin v := hv
  have hw' : Fl.mul binary64 m.get z.get = .fin w := hw
  rw [hm, a1] at hv'
  rw [hm, a3] at hw'
  have m3 : 1 * l ≤ 1 * q := by linarith
  have m4 : 1 * q ≤ 1 * r := by linarith
  obtain ⟨z', hz'⟩ := binary64_squeeze m3 m4 (show binary64 (1 * l) = .fin v from hv') (show binary64 (1 * r) = .fin w from hw')
  refine ⟨v, z', w, hv, ?_, hw, binary64_fin_mono m3 hv' hz', binary64_fin_mono m4 hz' hw', ?_, ?_⟩
  · show Fl.mul binary64 m.get y.get = _
    rw [hm, a2]
    exact hz'
  · show Hist.op 2 m.hist y.hist = .op 2 m.hist x.hist
    rw [a4]
  · show Hist.op 2 m.hist z.hist = .op 2 m.hist x.hist
    rw [a5]

theorem BetweenF.div {d x y z : Fused binary64 fuse} {k : ℚ} (hd : d.get = .fin k) (hk : 0 < k) (h : BetweenF x y z) (h1 : FinF (x / d))
    (h2 : FinF (z / d)) : BetweenF (x / d) (y / d) (z / d) := by
  obtain ⟨l, q, r, a1, a2, a3, k1, k2, a4, a5⟩ := h
  obtain ⟨v, hv⟩ := h1
  obtain ⟨w, hw⟩ := h2
  have hv' : Fl.div binary64 x.get d.get = .fin v := hv
  have hw' : Fl.div binary64 z.get d.get = .fin w := hw
  rw [hd, a1] at hv'
  rw [hd, a3] at hw'
  obtain ⟨_, c1, c2⟩ := div_fin (rnd := binary64) hk.ne' hv'
  obtain ⟨_, c3, c4⟩ := div_fin (rnd := binary64) hk.ne' hw'
  obtain rfl := fin_inj.mp c1
  obtain rfl := fin_inj.mp c3
  have m1 : l / k ≤ q / k := div_le_div_of_nonneg_right k1 hk.le
  have m2 : q / k ≤ r / k := div_le_div_of_nonneg_right k2 hk.le
  obtain ⟨z', hz'⟩ := binary64_squeeze m1 m2 c2 c4
  refine ⟨v, z', w, hv, div_get a2 hd hk.ne' hz', hw, binary64_fin_mono m1 c2 hz', binary64_fin_mono m2 hz' c4, ?_, ?_⟩
  · show Hist.op 3 y.hist d.hist = .op 3 x.hist d.hist
    rw [a4]
  · show Hist.op 3 z.hist d.hist = .op 3 x.hist d.hist
    rw [a5]

/-! ### Rows -/

/-- The elements off the diagonal times the unknowns, added up. -/
def sumOffF (r : List (Nat × Fused binary64 fuse)) (i : Nat) (Y : List (Fused binary64 fuse)) (v : Fused binary64 fuse) : Fused binary64 fuse :=
  r.foldl (fun v e => if e.1 = i then v else v + e.2 * Y.getD e.1 0) v

theorem sumOffF_stored (r : List (Nat × Fused binary64 fuse)) (i : Nat) (Y : List (Fused binary64 fuse)) {v : Fused binary64 fuse}
    (hv : v.Stored) : (sumOffF r i Y v).Stored := by
  induction r generalizing v with
  | nil => exact hv
  | cons e r ih =>
    unfold sumOffF at ih ⊢
    rw [List.foldl_cons]
    split
    · exact ih hv
    · exact ih (stored_add _ _)

theorem sumOffF_fin (r : List (Nat × Fused binary64 fuse)) (i : Nat) (Y : List (Fused binary64 fuse)) {v : Fused binary64 fuse}
    (h : FinF (sumOffF r i Y v)) : FinF v := by
  induction r generalizing v with
  | nil => exact h
  | cons e r ih =>
    unfold sumOffF at ih h
    rw [List.foldl_cons] at h
    split at h
    · exact ih h
    · exact (ih h).add_left

theorem getD_vec_any {α : Type} (Y : Fin n → α) (d : α) {j : Nat} (h : j < n) : (vec Y).getD j d = Y ⟨j, h⟩ := by
  unfold vec
  rw [List.getD_eq_getElem?_getD, List.getElem?_ofFn, dif_pos h]
  rfl

/-- The sum falls if the unknowns rise. -/
theorem sumOffF_between {Y1 Y2 Y3 : Fin n → Fused binary64 fuse} (hY : ∀ j, BetweenF (Y1 j) (Y2 j) (Y3 j)) (i : Nat)
    (r : List (Nat × Fused binary64 fuse)) (hr : ∀ e ∈ r, e.1 < n ∧ (e.1 ≠ i → ∃ a : ℚ, e.2.get = .fin a ∧ a ≤ 0)) :
    ∀ {v1 v2 v3 : Fused binary64 fuse}, BetweenF v3 v2 v1 → FinF (sumOffF r i (vec Y1) v1) → FinF (sumOffF r i (vec Y3) v3) →
    BetweenF (sumOffF r i (vec Y3) v3) (sumOffF r i (vec Y2) v2) (sumOffF r i (vec Y1) v1) := by
  induction r with
  | nil => intro v1 v2 v3 h _ _; exact h
  | cons e r ih =>
    intro v1 v2 v3 h h1 h3
    have ih := @ih fun e he => hr e (by simp [he])
    obtain ⟨g1, g2⟩ := hr e (by simp)
    unfold sumOffF at ih h1 h3 ⊢
    rw [List.foldl_cons] at h1 h3
    rw [List.foldl_cons, List.foldl_cons, List.foldl_cons]
    by_cases hi : e.1 = i
    · rw [if_pos hi] at h1 h3 ⊢
      rw [if_pos hi, if_pos hi]
      exact ih h h1 h3
    · rw [if_neg hi] at h1 h3 ⊢
      rw [if_neg hi, if_neg hi]
      obtain ⟨a, a1, a2⟩ := g2 hi
      refine ih ?_ h1 h3
      have f1 := sumOffF_fin r i _ h1
      have f3 := sumOffF_fin r i _ h3
      rw [getD_vec_any _ _ g1] at f1 f3 ⊢
      rw [getD_vec_any _ _ g1, getD_vec_any _ _ g1]
      obtain ⟨p, q, s, c1, c2, c3, c4, c5, c6, c7⟩ := hY ⟨e.1, g1⟩
      exact h.add_mul a1 c3 c2 c1 (c6.trans c7.symm) c7.symm (mul_le_mul_of_nonpos_left c5 a2) (mul_le_mul_of_nonpos_left c4 a2) f3 f1

/-- The rows of a matrix of doubles with a positive diagonal and no other positive elements. -/
structure SignedRowsF (m : Sparse (Fused binary64 fuse)) (L : Rows (Fused binary64 fuse)) (A : Fin n → Fin n → Fused binary64 fuse)
    (a : Fin n → Fin n → ℚ) : Prop where
  rep : m.Rep L
  bounded : Bounded n L
  length : L.length = n
  diag : ∀ i : Fin n, entry L i i = some (A i i)
  value : ∀ i j, (A i j).get = .fin (a i j)
  elem : ∀ i : Fin n, ∀ e ∈ row L i, ∃ h : e.1 < n, e.2 = A i ⟨e.1, h⟩
  signed : Signed a

theorem signedRowsF {m : Sparse (Fused binary64 fuse)} {A : Fin n → Fin n → Fused binary64 fuse} {a : Fin n → Fin n → ℚ} (hm : Square m A)
    (hA : ∀ i j, (A i j).get = .fin (a i j)) (ha : Signed a) : ∃ L, SignedRowsF m L A a := by
  obtain ⟨L, h1, h2, h3, h4, h5⟩ := square_rep hm
  refine ⟨L, h1, h3, h4, fun i => diag_fused h5 (hA i i) (ha.1 i).ne', hA, fun i e he => ?_, ha⟩
  have hb := h3 i e he
  have e1 : entry L i e.1 = some e.2 := (lookup_eq_some (h2 i)).mpr he
  refine ⟨hb, ?_⟩
  have := h5 i ⟨e.1, hb⟩
  rw [show entry L i (⟨e.1, hb⟩ : Fin n) = some e.2 from e1] at this
  exact this

section rows

variable {sqrt : Fused binary64 fuse → Fused binary64 fuse} {m : Sparse (Fused binary64 fuse)} {L : Rows (Fused binary64 fuse)}
  {A : Fin n → Fin n → Fused binary64 fuse} {a : Fin n → Fin n → ℚ}

theorem SignedRowsF.off (h : SignedRowsF m L A a) (i : Fin n) : ∀ e ∈ row L i, e.1 < n ∧ (e.1 ≠ i.1 → ∃ a : ℚ, e.2.get = .fin a ∧ a ≤ 0) := by
  intro e he
  obtain ⟨h1, h2⟩ := h.elem i e he
  exact ⟨h1, fun hi => ⟨_, by rw [h2]; exact h.value _ _, h.signed.2 i _ fun hc => hi (congrArg Fin.val hc).symm⟩⟩

/-- What is added to the new value without relaxation is zero. -/
theorem no_relaxation : ((fusedFloats binary64 fuse sqrt).one - (fusedFloats binary64 fuse sqrt).one).get = .fin 0 :=
  sub_get (x := 1) (p := 1) rfl rfl (by rw [sub_self]; exact binary64_zero)

/-- The new value lies between new values for smaller and larger numbers. -/
theorem newValue_betweenF (h : SignedRowsF m L A a) {B1 B2 B3 Y1 Y2 Y3 : Fin n → Fused binary64 fuse} (i : Fin n)
    (hB : BetweenF (B1 i) (B2 i) (B3 i)) (hY : ∀ j, BetweenF (Y1 j) (Y2 j) (Y3 j))
    (h1 : FinF (newValue (fusedFloats binary64 fuse sqrt) L B1 (fusedFloats binary64 fuse sqrt).one (A i i) Y1 i))
    (h3 : FinF (newValue (fusedFloats binary64 fuse sqrt) L B3 (fusedFloats binary64 fuse sqrt).one (A i i) Y3 i)) :
    BetweenF (newValue (fusedFloats binary64 fuse sqrt) L B1 (fusedFloats binary64 fuse sqrt).one (A i i) Y1 i)
      (newValue (fusedFloats binary64 fuse sqrt) L B2 (fusedFloats binary64 fuse sqrt).one (A i i) Y2 i)
      (newValue (fusedFloats binary64 fuse sqrt) L B3 (fusedFloats binary64 fuse sqrt).one (A i i) Y3 i) := by
  unfold newValue at h1 h3 ⊢
  have hs : ∀ Y : List (Fused binary64 fuse), (sumOffF (row L i) i Y 0).Stored := fun Y => sumOffF_stored _ _ _ stored_zero
  have d1 := h1.add_left
  have d3 := h3.add_left
  have e1 := d1.div_left (h.value i i) (h.signed.1 i).ne'
  have e3 := d3.div_left (h.value i i) (h.signed.1 i).ne'
  have f1 := e1.mul_right
  have f3 := e3.mul_right
  have g1 := f1.sub_right (hs _)
  have g3 := f3.sub_right (hs _)
  have s := sumOffF_between hY i (row L i) (h.off i) (v1 := 0) (v2 := 0) (v3 := 0) ⟨0, 0, 0, rfl, rfl, rfl, le_rfl, le_rfl, rfl, rfl⟩ g1 g3
  have t := (((hB.sub_stored s (hs _) (hs _) (hs _) f1 f3).mul_one (m := (fusedFloats binary64 fuse sqrt).one) rfl e1 e3).div (h.value i i)
    (h.signed.1 i) d1 d3)
  obtain ⟨p, q, r, c1, c2, c3, c4, c5, c6, c7⟩ := hY i
  exact t.add_mul no_relaxation c1 c2 c3 c6 c7 (by simp) (by simp) h1 h3

theorem sumOffF_zero {Y : Fin n → Fused binary64 fuse} (hY : ∀ j, (Y j).get = .fin 0) (i : Nat) (r : List (Nat × Fused binary64 fuse))
    (hr : ∀ e ∈ r, e.1 < n ∧ (e.1 ≠ i → ∃ a : ℚ, e.2.get = .fin a ∧ a ≤ 0)) :
    ∀ {v : Fused binary64 fuse}, v.get = .fin 0 → (sumOffF r i (vec Y) v).get = .fin 0 := by
  induction r with
  | nil => intro v h; exact h
  | cons e r ih =>
    intro v h
    have ih := @ih fun e he => hr e (by simp [he])
    obtain ⟨g1, g2⟩ := hr e (by simp)
    unfold sumOffF at ih ⊢
    rw [List.foldl_cons]
    by_cases hi : e.1 = i
    · rw [if_pos hi]
      exact ih h
    · rw [if_neg hi]
      obtain ⟨a, a1, -⟩ := g2 hi
      refine ih (add_get h (p := 0) ?_ (by rw [add_zero]; exact binary64_zero))
      rw [getD_vec_any _ _ g1, operand_get a1 (hY _), mul_zero]
      split
      · rfl
      · exact binary64_zero

theorem newValue_zeroF (h : SignedRowsF m L A a) {B Y : Fin n → Fused binary64 fuse} (i : Fin n) (hB : (B i).get = .fin 0)
    (hY : ∀ j, (Y j).get = .fin 0) :
    (newValue (fusedFloats binary64 fuse sqrt) L B (fusedFloats binary64 fuse sqrt).one (A i i) Y i).get = .fin 0 := by
  unfold newValue
  have hs : (sumOffF (row L i) i (vec Y) 0).Stored := sumOffF_stored _ _ _ stored_zero
  have h1 : (B i - sumOffF (row L i) i (vec Y) 0).get = .fin 0 :=
    sub_get hB ((hs _).trans (sumOffF_zero hY i _ (h.off i) rfl)) (by rw [sub_zero]; exact binary64_zero)
  have h2 : ((fusedFloats binary64 fuse sqrt).one * (B i - sumOffF (row L i) i (vec Y) 0)).get = .fin 0 := by
    show Fl.mul binary64 (.fin 1) (B i - sumOffF (row L i) i (vec Y) 0).get = _
    rw [h1]
    show binary64 (1 * 0) = _
    rw [mul_zero]
    exact binary64_zero
  have h3 := div_get h2 (h.value i i) (h.signed.1 i).ne' (q := 0) (by rw [zero_div]; exact binary64_zero)
  refine add_get h3 (p := 0) ?_ (by rw [add_zero]; exact binary64_zero)
  rw [operand_get no_relaxation (hY i), mul_zero]
  split
  · rfl
  · exact binary64_zero

variable {k : Method}

/-- Iterations exist. -/
theorem times_any (h : SignedRowsF m L A a) (s : FixedPoint (Fused binary64 fuse)) (B X : Fin n → Fused binary64 fuse)
    (w : List (Fused binary64 fuse)) (hw : k = .jacobi → w.length = n) (j : Nat) :
    ∃ (Z : Fin n → Fused binary64 fuse) (w' : List (Fused binary64 fuse)),
      times (step (fusedFloats binary64 fuse sqrt) k s m (vec B)) j (vec X, w) = .ok (vec Z, w') ∧ (k = .jacobi → w'.length = n) := by
  induction j with
  | zero => exact ⟨X, w, rfl, hw⟩
  | succ j ih =>
    obtain ⟨Z, w', e1, e2⟩ := ih
    obtain ⟨v, w'', f1, f2, -⟩ := step_gen (fusedFloats binary64 fuse sqrt) k s h.rep h.bounded h.length (fun i => A i i) h.diag B Z w' e2
    exact ⟨v, w'', by rw [times_succ, e1]; exact f1, f2⟩

end rows

/-! ### The property -/

variable {sqrt : Fused binary64 fuse → Fused binary64 fuse} {m : Sparse (Fused binary64 fuse)} {k : Method}

theorem times_betweenF (hk : k ≠ .sor) {L : Rows (Fused binary64 fuse)} {A : Fin n → Fin n → Fused binary64 fuse} {a : Fin n → Fin n → ℚ}
    (h : SignedRowsF m L A a) (s1 s2 s3 : FixedPoint (Fused binary64 fuse)) (B1 B2 B3 X1 X2 X3 : Fin n → Fused binary64 fuse)
    (hB : ∀ i, BetweenF (B1 i) (B2 i) (B3 i)) (hX : ∀ i, BetweenF (X1 i) (X2 i) (X3 i)) (w1 w2 w3 : List (Fused binary64 fuse))
    (hw1 : k = .jacobi → w1.length = n) (hw2 : k = .jacobi → w2.length = n) (hw3 : k = .jacobi → w3.length = n) (j : Nat) :
    ∀ (Y1 Y3 : Fin n → Fused binary64 fuse) (v1 v3 : List (Fused binary64 fuse)),
    times (step (fusedFloats binary64 fuse sqrt) k s1 m (vec B1)) j (vec X1, w1) = .ok (vec Y1, v1) → (∀ i, FinF (Y1 i)) →
    times (step (fusedFloats binary64 fuse sqrt) k s3 m (vec B3)) j (vec X3, w3) = .ok (vec Y3, v3) → (∀ i, FinF (Y3 i)) →
    ∃ (Y2 : Fin n → Fused binary64 fuse) (v2 : List (Fused binary64 fuse)),
      times (step (fusedFloats binary64 fuse sqrt) k s2 m (vec B2)) j (vec X2, w2) = .ok (vec Y2, v2) ∧ (k = .jacobi → v2.length = n) ∧
      ∀ i, BetweenF (Y1 i) (Y2 i) (Y3 i) := by
  induction j with
  | zero =>
    intro Y1 Y3 v1 v3 e1 _ e3 _
    have e1' : Out.ok (vec X1, w1) = .ok (vec Y1, v1) := e1
    have e3' : Out.ok (vec X3, w3) = .ok (vec Y3, v3) := e3
    rw [Out.ok.injEq, Prod.mk.injEq, vec_inj] at e1' e3'
    obtain ⟨rfl, -⟩ := e1'
    obtain ⟨rfl, -⟩ := e3'
    exact ⟨X2, w2, rfl, hw2, hX⟩
  | succ j ih =>
    intro Y1 Y3 v1 v3 e1 f1 e3 f3
    obtain ⟨Z1, u1, g1, l1⟩ := times_any (sqrt := sqrt) h s1 B1 X1 w1 hw1 j
    obtain ⟨Z3, u3, g3, l3⟩ := times_any (sqrt := sqrt) h s3 B3 X3 w3 hw3 j
    obtain ⟨V1, t1, a1, -, b1⟩ := step_gen (fusedFloats binary64 fuse sqrt) k s1 h.rep h.bounded h.length (fun i => A i i) h.diag B1 Z1 u1 l1
    obtain ⟨V3, t3, a3, -, b3⟩ := step_gen (fusedFloats binary64 fuse sqrt) k s3 h.rep h.bounded h.length (fun i => A i i) h.diag B3 Z3 u3 l3
    have e1' : Out.ok (vec V1, t1) = .ok (vec Y1, v1) := by rw [← a1, ← e1, times_succ, g1]; rfl
    have e3' : Out.ok (vec V3, t3) = .ok (vec Y3, v3) := by rw [← a3, ← e3, times_succ, g3]; rfl
    rw [Out.ok.injEq, Prod.mk.injEq, vec_inj] at e1' e3'
    obtain ⟨rfl, -⟩ := e1'
    obtain ⟨rfl, -⟩ := e3'
    simp only [if_neg hk] at b1 b3
    have before : ∀ {B Z V : Fin n → Fused binary64 fuse}, (∀ i, V i = newValue (fusedFloats binary64 fuse sqrt) L B
        (fusedFloats binary64 fuse sqrt).one (A i i) (fun j => if k ≠ .jacobi ∧ j < i then V j else Z j) i) → (∀ i, FinF (V i)) → ∀ i, FinF (Z i) := by
      intro B Z V hV hf i
      have := hf i
      rw [hV i] at this
      have := this.add_factor
      simp only at this
      rwa [if_neg fun hc : k ≠ .jacobi ∧ i < i => lt_irrefl _ hc.2] at this
    obtain ⟨Z2, u2, g2, l2, hZ⟩ := ih Z1 Z3 u1 u3 g1 (before b1 f1) g3 (before b3 f3)
    obtain ⟨V2, u2', a2, l2', b2⟩ := step_gen (fusedFloats binary64 fuse sqrt) k s2 h.rep h.bounded h.length (fun i => A i i) h.diag B2 Z2 u2 l2
    simp only [if_neg hk] at b2
    refine ⟨V2, u2', by rw [times_succ, g2]; exact a2, l2', fin_strong fun i ih => ?_⟩
    have h1 := f1 i
    have h3 := f3 i
    rw [b1 i] at h1 ⊢
    rw [b3 i] at h3 ⊢
    rw [b2 i]
    refine newValue_betweenF h i (hB i) (fun l => ?_) h1 h3
    by_cases hl : k ≠ .jacobi ∧ l < i
    · rw [if_pos hl, if_pos hl, if_pos hl]
      exact ih l hl.2
    · rw [if_neg hl, if_neg hl, if_neg hl]
      exact hZ l

/-- C233: with a positive diagonal and no other positive elements, iterates of doubles lie between those for smaller and larger right
hand sides and starts that do not overflow, whatever operations are fused. -/
theorem c233_between (hk : k ≠ .sor) (A : Fin n → Fin n → Fused binary64 fuse) (hm : Square m A) (a : Fin n → Fin n → ℚ)
    (hA : ∀ i j, (A i j).get = .fin (a i j)) (ha : Signed a) (s1 s2 s3 : FixedPoint (Fused binary64 fuse)) (b1 b2 b3 x1 x2 x3 : Fin n → ℚ)
    (hb hx : Fin n → Hist) (h1 : ∀ i, b1 i ≤ b2 i ∧ b2 i ≤ b3 i) (h2 : ∀ i, x1 i ≤ x2 i ∧ x2 i ≤ x3 i)
    (w1 w2 w3 : List (Fused binary64 fuse)) (hw1 : k = .jacobi → w1.length = n) (hw2 : k = .jacobi → w2.length = n)
    (hw3 : k = .jacobi → w3.length = n) (j : Nat) (Y1 Y3 : Fin n → Fused binary64 fuse) (y1 y3 : Fin n → ℚ) (v1 v3 : List (Fused binary64 fuse))
    (e1 : times (step (fusedFloats binary64 fuse sqrt) k s1 m (vec fun i => .num (.fin (b1 i)) (hb i))) j
      (vec fun i => .num (.fin (x1 i)) (hx i), w1) = .ok (vec Y1, v1)) (f1 : ∀ i, (Y1 i).get = .fin (y1 i))
    (e3 : times (step (fusedFloats binary64 fuse sqrt) k s3 m (vec fun i => .num (.fin (b3 i)) (hb i))) j
      (vec fun i => .num (.fin (x3 i)) (hx i), w3) = .ok (vec Y3, v3)) (f3 : ∀ i, (Y3 i).get = .fin (y3 i)) :
    ∃ (Y2 : Fin n → Fused binary64 fuse) (y2 : Fin n → ℚ) (v2 : List (Fused binary64 fuse)),
      times (step (fusedFloats binary64 fuse sqrt) k s2 m (vec fun i => .num (.fin (b2 i)) (hb i))) j
        (vec fun i => .num (.fin (x2 i)) (hx i), w2) = .ok (vec Y2, v2) ∧ (∀ i, (Y2 i).get = .fin (y2 i)) ∧
      ∀ i, y1 i ≤ y2 i ∧ y2 i ≤ y3 i := by
  obtain ⟨L, hL⟩ := signedRowsF hm hA ha
  obtain ⟨Y2, v2, g1, -, g2⟩ := times_betweenF (sqrt := sqrt) hk hL s1 s2 s3 (fun i => .num (.fin (b1 i)) (hb i))
    (fun i => .num (.fin (b2 i)) (hb i)) (fun i => .num (.fin (b3 i)) (hb i)) (fun i => .num (.fin (x1 i)) (hx i))
    (fun i => .num (.fin (x2 i)) (hx i)) (fun i => .num (.fin (x3 i)) (hx i))
    (fun i => ⟨_, _, _, rfl, rfl, rfl, (h1 i).1, (h1 i).2, rfl, rfl⟩) (fun i => ⟨_, _, _, rfl, rfl, rfl, (h2 i).1, (h2 i).2, rfl, rfl⟩)
    w1 w2 w3 hw1 hw2 hw3 j Y1 Y3 v1 v3 e1 (fun i => ⟨_, f1 i⟩) e3 (fun i => ⟨_, f3 i⟩)
  choose l y2 u c1 c2 c3 c4 c5 c6 using g2
  refine ⟨Y2, y2, v2, g1, c2, fun i => ?_⟩
  have d1 := (c1 i).symm.trans (f1 i)
  have d3 := (c3 i).symm.trans (f3 i)
  rw [Fl.fin.injEq] at d1 d3
  rw [← d1, ← d3]
  exact ⟨c4 i, c5 i⟩

/-- C233: iterates for a right hand side and a start without negative numbers have no negative numbers as long as they are finite,
whatever operations are fused. -/
theorem c233_nonneg (hk : k ≠ .sor) (A : Fin n → Fin n → Fused binary64 fuse) (hm : Square m A) (a : Fin n → Fin n → ℚ)
    (hA : ∀ i j, (A i j).get = .fin (a i j)) (ha : Signed a) (s : FixedPoint (Fused binary64 fuse)) (b x : Fin n → ℚ)
    (hb hx : Fin n → Hist) (h1 : ∀ i, 0 ≤ b i) (h2 : ∀ i, 0 ≤ x i) (w : List (Fused binary64 fuse)) (hw : k = .jacobi → w.length = n) (j : Nat)
    (Y : Fin n → Fused binary64 fuse) (y : Fin n → ℚ) (v : List (Fused binary64 fuse))
    (e : times (step (fusedFloats binary64 fuse sqrt) k s m (vec fun i => .num (.fin (b i)) (hb i))) j
      (vec fun i => .num (.fin (x i)) (hx i), w) = .ok (vec Y, v)) (f : ∀ i, (Y i).get = .fin (y i)) (i : Fin n) : 0 ≤ y i := by
  obtain ⟨L, hL⟩ := signedRowsF hm hA ha
  have zero : ∀ j, ∃ (Z : Fin n → Fused binary64 fuse) (w' : List (Fused binary64 fuse)),
      times (step (fusedFloats binary64 fuse sqrt) k s m (vec fun i => .num (.fin 0) (hb i))) j (vec fun i => .num (.fin 0) (hx i), w) =
        .ok (vec Z, w') ∧ (k = .jacobi → w'.length = n) ∧ ∀ i, (Z i).get = .fin 0 := by
    intro j
    induction j with
    | zero => exact ⟨_, w, rfl, hw, fun _ => rfl⟩
    | succ j ih =>
      obtain ⟨Z, w', e1, e2, e3⟩ := ih
      obtain ⟨V, w'', f1, f2, f3⟩ := step_gen (fusedFloats binary64 fuse sqrt) k s hL.rep hL.bounded hL.length (fun i => A i i) hL.diag
        (fun i => .num (.fin 0) (hb i)) Z w' e2
      simp only [if_neg hk] at f3
      refine ⟨V, w'', by rw [times_succ, e1]; exact f1, f2, fin_strong fun i ih => ?_⟩
      rw [f3 i]
      refine newValue_zeroF hL i rfl fun l => ?_
      split
      · rename_i hl
        exact ih l hl.2
      · exact e3 l
  obtain ⟨Z, w', z1, -, z2⟩ := zero j
  obtain ⟨Y2, y2, v2, -, -, q⟩ := c233_between hk A hm a hA ha s s s (fun _ => 0) b b (fun _ => 0) x x hb hx (fun i => ⟨h1 i, le_rfl⟩)
    (fun i => ⟨h2 i, le_rfl⟩) w w w hw hw hw j Z Y (fun _ => 0) y w' v z1 z2 e f
  exact (q i).1.trans (q i).2

/-- The iterates exist, are finite, keep the order and have no negative numbers. -/
example (fuse : Hist → Hist → Hist → Bool) (sqrt : Fused binary64 fuse → Fused binary64 fuse) (s : FixedPoint (Fused binary64 fuse)) (j : Nat) :
    ∃ (Y : Fin 2 → Fused binary64 fuse) (y1 y y3 : Fin 2 → ℚ) (v : List (Fused binary64 fuse)),
      times (step (fusedFloats binary64 fuse sqrt) .gaussSeidel s (dense2 (inp 1 3) (inp 2 (-1)) (inp 3 (-1)) (inp 4 3))
        (vec fun i : Fin 2 => .num (.fin (1 / 3)) (.input (5 + i)))) j (vec fun i : Fin 2 => .num (.fin (1 / 7)) (.input (7 + i)), []) =
          .ok (vec Y, v) ∧ (∀ i, (Y i).get = .fin (y i)) ∧ ∀ i, 0 ≤ y i ∧ y1 i ≤ y i ∧ y i ≤ y3 i ∧ 0 ≤ y1 i ∧ y3 i ≤ 1 := by
  have hm : Square (dense2 (inp 1 3) (inp 2 (-1)) (inp 3 (-1)) (inp 4 3) : Sparse (Fused binary64 fuse))
      fun i j => (![![inp 1 3, inp 2 (-1)], ![inp 3 (-1), inp 4 3]] : Fin 2 → Fin 2 → Fused binary64 fuse) i j := by
    refine ⟨Built.ofLists (nz := [0, 2, 4]) (ix := [0, 1, 0, 1]) (vs := [inp 1 3, inp 2 (-1), inp 3 (-1), inp 4 3]) (c := 2)
      (by simp [sizeMax]) (by simp [sizeMax]) (dense2_lists _ _ _ _), rfl, rfl, ?_⟩
    intro i j
    fin_cases i <;> fin_cases j <;> rfl
  have hA : ∀ i j, ((![![inp 1 3, inp 2 (-1)], ![inp 3 (-1), inp 4 3]] : Fin 2 → Fin 2 → Fused binary64 fuse) i j).get =
      .fin (((![![3, -1], ![-1, 3]] : Fin 2 → Fin 2 → ℤ) i j : ℤ) : ℚ) := by
    intro i j
    fin_cases i <;> fin_cases j <;> rfl
  have ha : Signed (fun i j => (((![![3, -1], ![-1, 3]] : Fin 2 → Fin 2 → ℤ) i j : ℤ) : ℚ)) := by unfold Signed; decide +kernel
  have run : ∀ b x : ℚ, 0 ≤ b ∧ b ≤ 2 → 0 ≤ x ∧ x ≤ 1 → _ := fun b x hb hx =>
    c232_box (fuse := fuse) (sqrt := sqrt) (k := .gaussSeidel) (by simp) s _ hm ![![3, -1], ![-1, 3]] hA (by decide) (by decide) 0 1
      (by decide) (by decide) (fun i => .num (.fin b) (.input (5 + i))) (fun _ => b) (fun _ => rfl)
      (fun i => by fin_cases i <;> simpa [Fin.sum_univ_two] using hb) (fun i => .num (.fin x) (.input (7 + i))) (fun _ => x) (fun _ => rfl)
      (fun _ => by simpa using hx) [] (by simp) j
  obtain ⟨Y1, y1, v1, e1, f1, g1⟩ := run 0 0 (by norm_num) (by norm_num)
  obtain ⟨Y3, y3, v3, e3, f3, g3⟩ := run 2 1 (by norm_num) (by norm_num)
  obtain ⟨Y, y, v, e, f, g⟩ := c233_between (by simp) _ hm _ hA ha s s s (fun _ => 0) (fun _ => 1 / 3) (fun _ => 2) (fun _ => 0)
    (fun _ => 1 / 7) (fun _ => 1) (fun i => .input (5 + i)) (fun i => .input (7 + i)) (fun _ => by norm_num) (fun _ => by norm_num)
    [] [] [] (by simp) (by simp) (by simp) j Y1 Y3 y1 y3 v1 v3 e1 f1 e3 f3
  exact ⟨Y, y1, y, y3, v, e, f, fun i => ⟨c233_nonneg (by simp) _ hm _ hA ha s (fun _ => 1 / 3) (fun _ => 1 / 7) _ _ (fun _ => by norm_num)
    (fun _ => by norm_num) [] (by simp) j Y y v e f i, (g i).1, (g i).2, by simpa using (g1 i).1, by simpa using (g3 i).2⟩⟩

end Disa.Props
