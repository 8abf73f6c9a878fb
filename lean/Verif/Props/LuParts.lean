import Verif.Props.LuMonotone

/-!
# Property C199: the direct solver solves parts that are not coupled as if each was alone
-/

namespace Disa.Props

open Disa Spec Dense Num Lu

/-! ### Numbers of some of the equations -/

section

variable {m n : Nat} (e : Fin m → Fin n)

/-- How many of the chosen equations come before equation `j`. -/
def before (j : Nat) : Nat := (Finset.univ.filter fun k : Fin m => (e k).1 < j).card

variable {e}

theorem before_at (he : StrictMono e) (k : Fin m) : before e (e k).1 = k.1 := by
  unfold before
  rw [show (Finset.univ.filter fun k' : Fin m => (e k').1 < (e k).1) = Finset.Iio k by
    ext k'
    simp only [Finset.mem_filter, Finset.mem_univ, true_and, Finset.mem_Iio]
    exact he.lt_iff_lt]
  exact Fin.card_Iio k

theorem before_after (he : StrictMono e) (k : Fin m) : before e ((e k).1 + 1) = k.1 + 1 := by
  unfold before
  rw [show (Finset.univ.filter fun k' : Fin m => (e k').1 < (e k).1 + 1) = Finset.Iic k by
    ext k'
    simp only [Finset.mem_filter, Finset.mem_univ, true_and, Finset.mem_Iic, Nat.lt_succ_iff]
    exact he.le_iff_le]
  exact Fin.card_Iic k

theorem before_other {j : Nat} (h : ∀ k, (e k).1 ≠ j) : before e (j + 1) = before e j := by
  unfold before
  congr 1
  ext k
  simp only [Finset.mem_filter, Finset.mem_univ, true_and]
  have := h k
  omega

theorem before_zero : before e 0 = 0 := by simp [before]

theorem before_all : before e n = m := by
  unfold before
  rw [Finset.filter_true_of_mem fun k _ => (e k).2]
  simp

theorem before_mono {i j : Nat} (h : i ≤ j) : before e i ≤ before e j := by
  unfold before
  apply Finset.card_le_card
  intro k
  simp only [Finset.mem_filter, Finset.mem_univ, true_and]
  omega

end

/-! ### Sums that skip zeros -/

/-- A double. -/
def IsDouble (a : Num binary64) : Prop := ∃ q : ℚ, a = fin q ∧ binary64 q = .fin q

theorem IsDouble.isFin {a : Num binary64} (h : IsDouble a) : IsFin a := ⟨_, h.choose_spec.1⟩

theorem binary64_zero : binary64 0 = .fin 0 := by decide +kernel

theorem IsDouble.less_zero {a : Num binary64} (h : IsDouble a) : a - Num.fin 0 = a := by
  obtain ⟨q, rfl, hq⟩ := h
  exact sub64 (by rw [sub_zero, hq])

theorem fin_zero_times {a : Num binary64} (h : IsFin a) : (fin 0 : Num binary64) * a = fin 0 := by
  obtain ⟨q, rfl⟩ := h
  exact mul64 (by rw [zero_mul, binary64_zero])

theorem times_fin_zero {a : Num binary64} (h : IsFin a) : a * (fin 0 : Num binary64) = fin 0 := by
  obtain ⟨q, rfl⟩ := h
  exact mul64 (by rw [mul_zero, binary64_zero])

theorem double_zero : IsDouble (fin 0) := ⟨0, rfl, binary64_zero⟩

theorem double_sub {a b : Num binary64} (h : IsFin (a - b)) : IsDouble (a - b) := by
  obtain ⟨q, hq⟩ := h
  obtain ⟨x, y, -, -, h3⟩ := sub_fin hq
  exact ⟨q, hq, binary64_idem h3⟩

theorem less_embed {m n : Nat} {e : Fin m → Fin n} (he : StrictMono e) {v : Num binary64} (hv : IsDouble v)
    {f : Fin n → Num binary64} {g : Fin m → Num binary64} {a l : Nat}
    (h0 : ∀ c : Fin n, a ≤ c.1 → c.1 < a + l → (∀ k, e k ≠ c) → f c = fin 0)
    (h1 : ∀ k, a ≤ (e k).1 → (e k).1 < a + l → f (e k) = g k) (hf : IsFin (less v f a l)) :
    less v f a l = less v g (before e a) (before e (a + l) - before e a) ∧ IsDouble (less v f a l) := by
  induction l with
  | zero => simp only [Nat.add_zero, Nat.sub_self]; exact ⟨rfl, hv⟩
  | succ l ih =>
    by_cases hl : a + l < n
    · have hu : less v f a (l + 1) = less v f a l - f ⟨a + l, hl⟩ := by
        rw [less, dif_pos hl]
      rw [hu] at hf ⊢
      have hf' : IsFin (less v f a l) := by
        obtain ⟨q, hq⟩ := hf
        obtain ⟨x, _, e1, -⟩ := sub_fin hq
        exact ⟨x, e1⟩
      obtain ⟨ih1, ih2⟩ := ih (fun c q1 q2 => h0 c q1 (by omega)) (fun k q1 q2 => h1 k q1 (by omega)) hf'
      by_cases hk : ∃ k, e k = ⟨a + l, hl⟩
      · obtain ⟨k, hk⟩ := hk
        have hk' : (e k).1 = a + l := by rw [hk]
        refine ⟨?_, double_sub hf⟩
        have b1 : before e (a + l) = k.1 := by rw [← hk', before_at he]
        have b2 : before e (a + (l + 1)) = k.1 + 1 := by rw [← Nat.add_assoc, ← hk', before_after he]
        have b3 : before e a ≤ k.1 := by rw [← b1]; exact before_mono (by omega)
        rw [b1] at ih1
        rw [ih1, b2, show k.1 + 1 - before e a = k.1 - before e a + 1 by omega]
        conv_rhs => rw [less]
        rw [dif_pos (by omega), ← hk, h1 k (by omega) (by omega)]
        congr 2
        exact Fin.ext (by simp; omega)
      · push Not at hk
        rw [h0 ⟨a + l, hl⟩ (by simp) (by simp) hk, ih2.less_zero]
        refine ⟨?_, ih2⟩
        rw [ih1, ← Nat.add_assoc, before_other (j := a + l) fun k hk' => hk k (Fin.ext hk')]
    · have hu : less v f a (l + 1) = less v f a l := by
        rw [less, dif_neg hl]
      rw [hu] at hf ⊢
      obtain ⟨ih1, ih2⟩ := ih (fun c q1 q2 => h0 c q1 (by omega)) (fun k q1 q2 => h1 k q1 (by omega)) hf
      refine ⟨?_, ih2⟩
      rw [ih1, ← Nat.add_assoc, before_other (j := a + l) fun k hk' => by have := (e k).2; omega]

/-! ### Factors -/

/-- The matrix `M` does not couple the chosen equations with the others, and `M'` has the elements of the chosen ones. -/
structure Alone {m n : Nat} (e : Fin m → Fin n) (M : Fin n → Fin n → Num binary64) (M' : Fin m → Fin m → Num binary64) :
    Prop where
  same : ∀ a b, M (e a) (e b) = M' a b
  zero : ∀ r c, ¬ ((∃ k, e k = r) ↔ ∃ k, e k = c) → M r c = fin 0
  double : ∀ r c, IsDouble (M r c)

section

variable {m n : Nat} {e : Fin m → Fin n} {M : Fin n → Fin n → Num binary64} {M' : Fin m → Fin m → Num binary64}

theorem zero_div64 {d : ℚ} (hd : d ≠ 0) : (fin 0 : Num binary64) / fin d = fin 0 := div64 hd (by rw [zero_div, binary64_zero])

theorem elim_at (M : Fin n → Fin n → Num binary64) (i : Fin n) {r : Fin n} (hr : i < r) : elim M i r i = M r i / M i i := by
  unfold elim
  rw [if_pos hr, if_pos rfl]

theorem elim_past (M : Fin n → Fin n → Num binary64) (i : Fin n) {r c : Fin n} (hr : i < r) (hc : i < c) :
    elim M i r c = M r c - M r i / M i i * M i c := by
  unfold elim
  rw [if_pos hr, if_neg (ne_of_gt hc), if_pos hc]

/-- What does not depend on whether row `i` is one of the chosen ones. -/
theorem alone_elim_zero (h : Alone e M M') (i : Fin n) {d : ℚ} (hi : M i i = fin d) (hd : d ≠ 0)
    (hf : ∀ r c, IsFin (elim M i r c)) :
    (∀ r c, ¬ ((∃ k, e k = r) ↔ ∃ k, e k = c) → elim M i r c = fin 0) ∧ ∀ r c, IsDouble (elim M i r c) := by
  have hl : ∀ r, i < r → IsFin (M r i / M i i) := fun r hr => by
    rw [← elim_at M i hr]
    exact hf r i
  constructor
  · intro r c hrc
    by_cases hr : i < r
    · rcases lt_trichotomy c i with hc | rfl | hc
      · rw [elim_same M (.inr hc)]
        exact h.zero r c hrc
      · rw [elim_at M _ hr, h.zero r c hrc, hi, zero_div64 hd]
      · rw [elim_past M i hr hc, h.zero r c hrc]
        by_cases hri : (∃ k, e k = r) ↔ ∃ k, e k = i
        · have hic : ¬ ((∃ k, e k = i) ↔ ∃ k, e k = c) := fun h' => hrc (hri.trans h')
          rw [h.zero i c hic, times_fin_zero (hl r hr), double_zero.less_zero]
        · rw [h.zero r i hri, hi, zero_div64 hd, fin_zero_times (h.double i c).isFin, double_zero.less_zero]
    · rw [elim_same M (.inl (not_lt.mp hr))]
      exact h.zero r c hrc
  · intro r c
    by_cases hr : i < r
    · rcases lt_trichotomy c i with hc | rfl | hc
      · rw [elim_same M (.inr hc)]
        exact h.double r c
      · obtain ⟨q, hq⟩ := hf r c
        have hq' := hq
        rw [elim_at M _ hr, hi] at hq'
        obtain ⟨x, -, hx⟩ := div_fin hd hq'
        exact ⟨q, hq, binary64_idem hx⟩
      · have := hf r c
        rw [elim_past M i hr hc] at this ⊢
        exact double_sub this
    · rw [elim_same M (.inl (not_lt.mp hr))]
      exact h.double r c

theorem alone_elim_in (he : StrictMono e) (h : Alone e M M') (k : Fin m) {d : ℚ} (hi : M (e k) (e k) = fin d) (hd : d ≠ 0)
    (hf : ∀ r c, IsFin (elim M (e k) r c)) : Alone e (elim M (e k)) (elim M' k) := by
  obtain ⟨h1, h2⟩ := alone_elim_zero h (e k) hi hd hf
  refine ⟨fun a b => ?_, h1, h2⟩
  unfold elim
  simp only [he.lt_iff_lt, he.injective.eq_iff, h.same]

theorem alone_elim_out (h : Alone e M M') (i : Fin n) (ho : ∀ k, e k ≠ i) {d : ℚ} (hi : M i i = fin d) (hd : d ≠ 0)
    (hf : ∀ r c, IsFin (elim M i r c)) : Alone e (elim M i) M' := by
  obtain ⟨h1, h2⟩ := alone_elim_zero h i hi hd hf
  refine ⟨fun a b => ?_, h1, h2⟩
  have hai : ¬ ((∃ k, e k = e a) ↔ ∃ k, e k = i) := fun h' => by
    obtain ⟨k, hk⟩ := h'.mp ⟨a, rfl⟩
    exact ho k hk
  by_cases hr : i < e a
  · rcases lt_trichotomy (e b) i with hc | hc | hc
    · rw [elim_same M (.inr hc), h.same]
    · exact absurd hc (ho b)
    · rw [elim_past M i hr hc, h.zero _ _ hai, hi, zero_div64 hd, fin_zero_times (h.double i _).isFin, (h.double _ _).less_zero, h.same]
  · rw [elim_same M (.inl (not_lt.mp hr)), h.same]

theorem alone_swap_in (he : StrictMono e) (h : Alone e M M') (k l : Fin m) :
    Alone e (fun r => M (Equiv.swap (e k) (e l) r)) (fun a => M' (Equiv.swap k l a)) := by
  have hs : ∀ a, Equiv.swap (e k) (e l) (e a) = e (Equiv.swap k l a) := fun a => (he.injective.map_swap k l a).symm
  have hm : ∀ r, (∃ a, e a = Equiv.swap (e k) (e l) r) ↔ ∃ a, e a = r := by
    intro r
    constructor
    · rintro ⟨a, ha⟩
      refine ⟨Equiv.swap k l a, ?_⟩
      rw [← hs, ha, Equiv.swap_apply_self]
    · rintro ⟨a, rfl⟩
      exact ⟨_, (hs a).symm⟩
  exact ⟨fun a b => by rw [hs, h.same], fun r c hrc => h.zero _ _ (by rwa [hm]), fun r c => h.double _ _⟩

theorem alone_swap_out (h : Alone e M M') {i j : Fin n} (hi : ∀ k, e k ≠ i) (hj : ∀ k, e k ≠ j) :
    Alone e (fun r => M (Equiv.swap i j r)) M' := by
  have hs : ∀ a, Equiv.swap i j (e a) = e a := fun a => Equiv.swap_apply_of_ne_of_ne (hi a) (hj a)
  have hm : ∀ r, (∃ a, e a = Equiv.swap i j r) ↔ ∃ a, e a = r := by
    intro r
    constructor
    · rintro ⟨a, ha⟩
      refine ⟨a, ?_⟩
      have := congrArg (Equiv.swap i j) ha
      rwa [Equiv.swap_apply_self, hs] at this
    · rintro ⟨a, rfl⟩
      exact ⟨a, (hs a).symm⟩
  exact ⟨fun a b => by rw [hs, h.same], fun r c hrc => h.zero _ _ (by rwa [hm]), fun r c => h.double _ _⟩

/-! ### The search for the pivot -/

theorem zero_not_greater {q : ℚ} (hq : 0 ≤ q) :
    (Num.arith binary64).nearlyGreater ((Num.arith binary64).abs (fin 0 : Num binary64)) (fin q : Num binary64)
      (Num.arith binary64).rel (Num.arith binary64).tol = .ok false := by
  unfold Arith.nearlyGreater Arith.nearlyLessEqual
  rcases hq.lt_or_eq with h | rfl
  · have : (Num.arith binary64).lt ((Num.arith binary64).abs (fin 0 : Num binary64)) (fin q : Num binary64) = true := by
      show decide (|(0 : ℚ)| < q) = true
      simpa using h
    rw [this]
    rfl
  · decide +kernel

theorem search_step {lu : List (List (Num binary64))} {i k : Nat} {mx : ℚ} {im : Nat} {a : ℚ}
    (ha : rd2 lu (i + k) i = .ok (fin a : Num binary64)) :
    ∃ g : Bool, (Num.arith binary64).nearlyGreater ((Num.arith binary64).abs (fin a : Num binary64)) (fin mx : Num binary64)
        (Num.arith binary64).rel (Num.arith binary64).tol = .ok g ∧
      searchBody (Num.arith binary64) lu i k (fin mx, im) = .ok (if g then (fin |a|, i + k) else (fin mx, im)) := by
  obtain ⟨g, hg⟩ := nearlyGreater_num (rnd := binary64) ((Num.arith binary64).abs (fin a : Num binary64)) (fin mx)
  refine ⟨g, hg, ?_⟩
  unfold searchBody
  rw [ha, Out.ok_bind]
  simp only [hg, Out.ok_bind]
  cases g <;> rfl

theorem search_in (he : StrictMono e) (h : Alone e M M') (k : Fin m) (j : Nat) (hj : (e k).1 + j ≤ n) :
    ∃ (mx : ℚ) (l : Fin m), 0 ≤ mx ∧ k ≤ l ∧
      loop j (searchBody (Num.arith binary64) (mat M) (e k).1) ((0 : Num binary64), (e k).1) = .ok (fin mx, (e l).1) ∧
      loop (before e ((e k).1 + j) - k.1) (searchBody (Num.arith binary64) (mat M') k.1) ((0 : Num binary64), k.1) =
        .ok (fin mx, l.1) := by
  induction j with
  | zero =>
    refine ⟨0, k, le_rfl, le_rfl, rfl, ?_⟩
    rw [Nat.add_zero, before_at he, Nat.sub_self]
    rfl
  | succ j ih =>
    obtain ⟨mx, l, h1, h2, h3, h4⟩ := ih (by omega)
    have hr : (e k).1 + j < n := by omega
    obtain ⟨q, hq, -⟩ := h.double ⟨_, hr⟩ (e k)
    obtain ⟨g, g1, g2⟩ := search_step (mx := mx) (im := (e l).1) (rd2_mat M hr (e k).2 |>.trans (congrArg Out.ok hq))
    have e3 : loop (j + 1) (searchBody (Num.arith binary64) (mat M) (e k).1) ((0 : Num binary64), (e k).1) =
        .ok (if g then (fin |q|, (e k).1 + j) else (fin mx, (e l).1)) := by
      rw [loop, h3, Out.ok_bind, g2]
    by_cases ha : ∃ a, e a = ⟨(e k).1 + j, hr⟩
    · obtain ⟨a, ha⟩ := ha
      have ha' : (e a).1 = (e k).1 + j := by rw [ha]
      have hka : k ≤ a := by
        rw [← he.le_iff_le]
        show (e k).1 ≤ (e a).1
        omega
      have b1 : before e ((e k).1 + j) = a.1 := by rw [← ha', before_at he]
      have b2 : before e ((e k).1 + (j + 1)) = a.1 + 1 := by rw [← Nat.add_assoc, ← ha', before_after he]
      have hka' : k.1 ≤ a.1 := hka
      have hq' : M' a k = fin q := by rw [← h.same, ha, hq]
      have hs : k.1 + (a.1 - k.1) = a.1 := by omega
      have hr2 : rd2 (mat M') (k.1 + (a.1 - k.1)) k.1 = .ok (fin q : Num binary64) := by
        rw [rd2_mat M' (by omega) k.2, ← hq']
        congr 2
        exact Fin.ext hs
      obtain ⟨g', g3, g4⟩ := search_step (mx := mx) (im := l.1) hr2
      rw [g1, Out.ok.injEq] at g3
      subst g3
      rw [b1] at h4
      have e4 : loop (a.1 + 1 - k.1) (searchBody (Num.arith binary64) (mat M') k.1) ((0 : Num binary64), k.1) =
          .ok (if g then (fin |q|, k.1 + (a.1 - k.1)) else (fin mx, l.1)) := by
        rw [show a.1 + 1 - k.1 = a.1 - k.1 + 1 by omega, loop, h4, Out.ok_bind, g4]
      rw [b2, e3, e4]
      cases g
      · exact ⟨mx, l, h1, h2, rfl, rfl⟩
      · refine ⟨|q|, a, abs_nonneg _, hka, ?_, ?_⟩
        · simp only [if_true, ha']
        · simp only [if_true, hs]
    · push Not at ha
      have hz : M ⟨(e k).1 + j, hr⟩ (e k) = fin 0 := h.zero _ _ fun h' => by
        obtain ⟨a, h''⟩ := h'.mpr ⟨k, rfl⟩
        exact ha a h''
      rw [hz, fin_inj] at hq
      subst hq
      rw [zero_not_greater h1, Out.ok.injEq] at g1
      subst g1
      refine ⟨mx, l, h1, h2, by rw [e3]; rfl, ?_⟩
      rw [← Nat.add_assoc, before_other (j := (e k).1 + j) fun a ha' => ha a (Fin.ext ha')]
      exact h4

theorem search_out (h : Alone e M M') (i : Fin n) (hi : ∀ k, e k ≠ i) (j : Nat) (hj : i.1 + j ≤ n) :
    ∃ (mx : ℚ) (l : Fin n), 0 ≤ mx ∧ (∀ k, e k ≠ l) ∧
      loop j (searchBody (Num.arith binary64) (mat M) i.1) ((0 : Num binary64), i.1) = .ok (fin mx, l.1) := by
  induction j with
  | zero => exact ⟨0, i, le_rfl, hi, rfl⟩
  | succ j ih =>
    obtain ⟨mx, l, h1, h2, h3⟩ := ih (by omega)
    have hr : i.1 + j < n := by omega
    obtain ⟨q, hq, -⟩ := h.double ⟨_, hr⟩ i
    obtain ⟨g, g1, g2⟩ := search_step (mx := mx) (im := l.1) (rd2_mat M hr i.2 |>.trans (congrArg Out.ok hq))
    have e3 : loop (j + 1) (searchBody (Num.arith binary64) (mat M) i.1) ((0 : Num binary64), i.1) =
        .ok (if g then (fin |q|, i.1 + j) else (fin mx, l.1)) := by
      rw [loop, h3, Out.ok_bind, g2]
    rw [e3]
    cases g
    · exact ⟨mx, l, h1, h2, rfl⟩
    · refine ⟨|q|, ⟨i.1 + j, hr⟩, abs_nonneg _, fun k hk => ?_, rfl⟩
      have hz : M ⟨i.1 + j, hr⟩ i = fin 0 := h.zero _ _ fun h' => by
        obtain ⟨a, h''⟩ := h'.mp ⟨k, hk⟩
        exact hi a h''
      rw [hz, fin_inj] at hq
      subst hq
      rw [zero_not_greater h1, Out.ok.injEq] at g1
      cases g1

theorem pivotStep_of_search (p : Fin n → Nat) (i l : Fin n) {mx : Num binary64}
    (hs : loop (n - i.1) (searchBody (Num.arith binary64) (mat M) i.1) ((0 : Num binary64), i.1) = .ok (mx, l.1)) :
    pivotStep (Num.arith binary64) i (mat M, vec p) =
      .ok (mat fun r => M (Equiv.swap i l r), vec fun r => p (Equiv.swap i l r)) := by
  unfold pivotStep
  simp only
  rw [sizeColumn_mat (by have := i.2; omega), hs, Out.ok_bind]
  simp only
  by_cases hm : l.1 = i.1
  · obtain rfl := Fin.ext hm
    simp
  · have hm' : (l.1 != i.1) = true := by simpa using hm
    rw [if_pos hm', show swapAt (vec p) i.1 l.1 = _ from swapAt_ok p i l, Out.ok_bind, mat_eq_vec,
      show swapAt (vec fun r => vec (M r)) i.1 l.1 = _ from swapAt_ok _ i l]
    rfl

/-- The lists of pivots belong together. -/
def Pivots (e : Fin m → Fin n) (pivot : Bool) (st st' : List Nat) : Prop :=
  pivot = true → ∃ (p : Fin n → Nat) (p' : Fin m → Fin m), st = vec p ∧ st' = vec (fun a => (p' a).1) ∧ ∀ a, p (e a) = (e (p' a)).1

theorem pivot_in (he : StrictMono e) (h : Alone e M M') {pivot : Bool} {st st' : List Nat} (hp : Pivots e pivot st st') (k : Fin m) :
    ∃ (N : Fin n → Fin n → Num binary64) (N' : Fin m → Fin m → Num binary64) (st1 st1' : List Nat),
      (if pivot then pivotStep (Num.arith binary64) (e k).1 (mat M, st) else pure (mat M, st)) = .ok (mat N, st1) ∧
      (if pivot then pivotStep (Num.arith binary64) k.1 (mat M', st') else pure (mat M', st')) = .ok (mat N', st1') ∧
      Alone e N N' ∧ Pivots e pivot st1 st1' := by
  cases pivot with
  | false => exact ⟨M, M', st, st', rfl, rfl, h, fun h => absurd h (by simp)⟩
  | true =>
    obtain ⟨p, p', rfl, rfl, hpp⟩ := hp rfl
    obtain ⟨mx, l, -, -, h3, h4⟩ := search_in he h k (n - (e k).1) (by have := (e k).2; omega)
    rw [show (e k).1 + (n - (e k).1) = n by have := (e k).2; omega, before_all] at h4
    refine ⟨_, _, _, _, pivotStep_of_search p (e k) (e l) h3, pivotStep_of_search (fun a => (p' a).1) k l h4,
      alone_swap_in he h k l, fun _ => ⟨_, fun a => p' (Equiv.swap k l a), rfl, rfl, fun a => ?_⟩⟩
    rw [← he.injective.map_swap, hpp]

theorem pivot_out (h : Alone e M M') {pivot : Bool} {st st' : List Nat} (hp : Pivots e pivot st st') (i : Fin n)
    (hi : ∀ k, e k ≠ i) :
    ∃ (N : Fin n → Fin n → Num binary64) (st1 : List Nat),
      (if pivot then pivotStep (Num.arith binary64) i.1 (mat M, st) else pure (mat M, st)) = .ok (mat N, st1) ∧
      Alone e N M' ∧ Pivots e pivot st1 st' := by
  cases pivot with
  | false => exact ⟨M, st, rfl, h, fun h => absurd h (by simp)⟩
  | true =>
    obtain ⟨p, p', rfl, rfl, hpp⟩ := hp rfl
    obtain ⟨mx, l, -, h2, h3⟩ := search_out h i hi (n - i.1) (by omega)
    refine ⟨_, _, pivotStep_of_search p i l h3, alone_swap_out h hi h2, fun _ => ⟨_, p', rfl, rfl, fun a => ?_⟩⟩
    rw [Equiv.swap_apply_of_ne_of_ne (hi a) (h2 a), hpp]

theorem body_ok {n : Nat} {N : Fin n → Fin n → Num binary64} {pivot : Bool} {tol : Num binary64} {lu : List (List (Num binary64))}
    {st st1 : List Nat} (i : Fin n)
    (h : (if pivot then pivotStep (Num.arith binary64) i.1 (lu, st) else pure (lu, st)) = .ok (mat N, st1))
    (hlt : (Num.arith binary64).lt ((Num.arith binary64).abs (N i i)) tol = false) :
    factoriseBody (Num.arith binary64) pivot tol i.1 (lu, st, true) = .ok (mat (elim N i), st1, true) := by
  unfold factoriseBody
  simp only [if_true, h, Out.ok_bind, rd2_mat N i.2 i.2, hlt, Bool.false_eq_true, if_false, mat_length]
  rw [eliminate_ok N i]
  rfl

theorem finite_before {N : Fin n → Fin n → Num binary64} {i : Fin n} {d : ℚ} (hi : N i i = fin d) (hd : d ≠ 0)
    (hf : ∀ r c, IsFin (elim N i r c)) (r c : Fin n) : IsFin (N r c) := by
  have h := hf r c
  by_cases hr : i < r
  · rcases lt_trichotomy c i with hc | rfl | hc
    · rwa [elim_same N (.inr hc)] at h
    · obtain ⟨q, hq⟩ := h
      rw [elim_at N _ hr, hi] at hq
      obtain ⟨x, hx, -⟩ := div_fin hd hq
      exact ⟨x, hx⟩
    · obtain ⟨q, hq⟩ := h
      rw [elim_past N i hr hc] at hq
      obtain ⟨x, _, hx, -⟩ := sub_fin hq
      exact ⟨x, hx⟩
  · rwa [elim_same N (.inl (not_lt.mp hr))] at h

/-- If the whole matrix is accepted, the part is accepted, and has the factors of the whole. -/
theorem factorise_alone (he : StrictMono e) (pivot : Bool) (s s' u : Lu (Num binary64)) {t : ℚ} (ht : 0 < t) (hs : s.tol = fin t)
    (hu : u.tol = s.tol) (A : Fin n → Fin n → Num binary64) (A' : Fin m → Fin m → Num binary64) (hA : Alone e A A')
    (hf : factorise (Num.arith binary64) pivot s (mat A) = .ok (s', true)) (M : Fin n → Fin n → Num binary64)
    (hM : s'.lu = mat M) (hfin : ∀ r c, IsFin (M r c)) :
    ∃ (M' : Fin m → Fin m → Num binary64) (st' : List Nat),
      factorise (Num.arith binary64) pivot u (mat A') = .ok ({ u with factorised := true, lu := mat M', piv := st' }, true) ∧
      Alone e M M' ∧ Pivots e pivot s'.piv st' ∧ ∀ r, ∃ d, M r r = fin d ∧ d ≠ 0 := by
  set init : List Nat := if pivot then List.range (sizeColumn (mat A)) else s.piv with hinit
  set init' : List Nat := if pivot then List.range (sizeColumn (mat A')) else u.piv with hinit'
  obtain ⟨_, h2, N, st, ok, rfl, -, h3⟩ := loop_inv (n := n) (body := factoriseBody (Num.arith binary64) pivot s.tol)
    (s := (mat A, init, true))
    (fun i x => ∃ (N : Fin n → Fin n → Num binary64) (st : List Nat) (ok : Bool), x = (mat N, st, ok) ∧
      (pivot = true → ∃ p : Fin n → Nat, st = vec p) ∧
      (ok = true → (∀ r c, IsFin (N r c)) → ∃ (M' : Fin m → Fin m → Num binary64) (st' : List Nat),
        loop (before e i) (factoriseBody (Num.arith binary64) pivot u.tol) (mat A', init', true) = .ok (mat M', st', true) ∧
        Alone e N M' ∧ Pivots e pivot st st' ∧ ∀ r : Fin n, r.1 < i → ∃ d, N r r = fin d ∧ d ≠ 0))
    ⟨A, init, true, rfl, fun hp => by
        rw [hinit, if_pos hp, sizeColumn_mat (by omega), vec_range]
        exact ⟨_, rfl⟩, fun _ _ => ⟨A', init', by rw [before_zero]; rfl, hA, fun hp => by
        rw [hinit, hinit', if_pos hp, if_pos hp, sizeColumn_mat (by omega), sizeColumn_mat (by omega), vec_range, vec_range]
        exact ⟨_, id, rfl, rfl, fun a => rfl⟩, fun r hr => absurd hr (Nat.not_lt_zero _)⟩⟩ (by
      rintro i x hi ⟨N, st, ok, rfl, hv, h3⟩
      cases ok with
      | false => exact ⟨_, rfl, N, st, false, rfl, hv, by simp⟩
      | true =>
        obtain ⟨N1, st1, e1, hv1, hfin1⟩ : ∃ (N1 : Fin n → Fin n → Num binary64) (st1 : List Nat),
            (if pivot then pivotStep (Num.arith binary64) i (mat N, st) else pure (mat N, st)) = .ok (mat N1, st1) ∧
            (pivot = true → ∃ p : Fin n → Nat, st1 = vec p) ∧
            ((∀ r c, IsFin (N1 r c)) → (∀ r c, IsFin (N r c)) ∧ ∀ r : Fin n, r.1 < i → N1 r = N r) := by
          cases pivot with
          | false => exact ⟨N, st, rfl, hv, fun h => ⟨h, fun r _ => rfl⟩⟩
          | true =>
            obtain ⟨p, rfl⟩ := hv rfl
            obtain ⟨l, hl, hsw⟩ := pivotStep_any (F := Num.arith binary64) nearlyGreater_num N p ⟨i, hi⟩
            refine ⟨_, _, hsw, fun _ => ⟨_, rfl⟩, fun h => ⟨fun r c => ?_, fun r hr => ?_⟩⟩
            · have := h (Equiv.swap ⟨i, hi⟩ l r) c
              rwa [Equiv.swap_apply_self] at this
            · rw [Equiv.swap_apply_of_ne_of_ne]
              · rintro rfl; exact absurd hr (by simp)
              · rintro rfl
                have : i ≤ r.1 := hl
                omega
        cases hsmall : (Num.arith binary64).lt ((Num.arith binary64).abs (N1 ⟨i, hi⟩ ⟨i, hi⟩)) s.tol with
        | true =>
          refine ⟨(mat N1, st1, false), ?_, N1, st1, false, rfl, hv1, by simp⟩
          unfold factoriseBody
          simp only [if_true, e1, Out.ok_bind, rd2_mat N1 hi hi, hsmall]
          rfl
        | false =>
          refine ⟨_, body_ok ⟨i, hi⟩ e1 hsmall, _, st1, true, rfl, hv1, fun _ hN2 => ?_⟩
          obtain ⟨d, hd⟩ : IsFin (N1 ⟨i, hi⟩ ⟨i, hi⟩) := by
            have := hN2 ⟨i, hi⟩ ⟨i, hi⟩
            rwa [elim_same N1 (.inl le_rfl)] at this
          have hd0 : d ≠ 0 := by
            have h5 := hsmall
            rw [hs] at h5
            have := ne_zero_of_accepted ht h5
            rw [hd] at this
            exact this rfl
          have hN1 := finite_before hd hd0 hN2
          obtain ⟨hN, hsame⟩ := hfin1 hN1
          obtain ⟨M', st', k1, k2, k3, k4⟩ := h3 rfl hN
          have hdiag : ∀ r : Fin n, r.1 < i + 1 → ∃ d, elim N1 ⟨i, hi⟩ r r = fin d ∧ d ≠ 0 := by
            intro r hr
            rw [elim_same N1 (.inl (show r.1 ≤ i by omega))]
            by_cases hri : r.1 < i
            · rw [hsame r hri]
              exact k4 r hri
            · obtain rfl : r = ⟨i, hi⟩ := Fin.ext (by show r.1 = i; omega)
              exact ⟨d, hd, hd0⟩
          by_cases hk : ∃ k, e k = ⟨i, hi⟩
          · obtain ⟨k, hk⟩ := hk
            have hki : (e k).1 = i := by rw [hk]
            obtain ⟨P, P', sp, sp', q1, q2, q3, q4⟩ := pivot_in he k2 k3 k
            rw [hki, e1] at q1
            simp only [Out.ok.injEq, Prod.mk.injEq] at q1
            obtain ⟨q1, rfl⟩ := q1
            obtain rfl := mat_inj.mp q1
            have hPd : P' k k = N1 ⟨i, hi⟩ ⟨i, hi⟩ := by rw [← q3.same, hk]
            have q5 := body_ok (tol := u.tol) k q2 (by rw [hPd, hu]; exact hsmall)
            refine ⟨elim P' k, sp', ?_, ?_, q4, hdiag⟩
            · rw [← hki, before_after he, loop]
              rw [← hki, before_at he] at k1
              rw [k1, Out.ok_bind, q5]
            · rw [← hk] at hN2 hd ⊢
              exact alone_elim_in he q3 k hd hd0 hN2
          · push Not at hk
            obtain ⟨P, sp, q1, q3, q4⟩ := pivot_out k2 k3 ⟨i, hi⟩ hk
            simp only at q1
            rw [e1] at q1
            simp only [Out.ok.injEq, Prod.mk.injEq] at q1
            obtain ⟨q1, rfl⟩ := q1
            obtain rfl := mat_inj.mp q1
            refine ⟨M', st', ?_, alone_elim_out q3 ⟨i, hi⟩ hk hd hd0 hN2, q4, hdiag⟩
            rw [before_other (j := i) fun k hk' => hk k (Fin.ext hk')]
            exact k1)
  unfold factorise at hf
  rw [mat_length, ← hinit, h2, Out.ok_bind] at hf
  simp only [Out.pure_eq, Out.ok.injEq, Prod.mk.injEq] at hf
  obtain ⟨rfl, rfl⟩ := hf
  obtain rfl := mat_inj.mp hM
  obtain ⟨M', st', k1, k2, k3, k4⟩ := h3 rfl hfin
  refine ⟨M', st', ?_, k2, k3, fun r => k4 r r.2⟩
  unfold factorise
  rw [mat_length, ← hinit']
  rw [before_all] at k1
  rw [k1]
  rfl

end

/-! ### The property -/

/-- The equations that determine a solve, for a factorisation that has been accepted. -/
theorem solve_sweeps (pivot : Bool) (s s' : Lu (Num binary64)) {t : ℚ} (ht : 0 < t) (hs : s.tol = fin t) {n : Nat}
    (A : Fin n → Fin n → Num binary64) (hf : factorise (Num.arith binary64) pivot s (mat A) = .ok (s', true))
    (M : Fin n → Fin n → Num binary64) (hM : s'.lu = mat M) :
    ∃ p : Equiv.Perm (Fin n), (pivot = true → s'.piv = vec fun r => (p r).1) ∧ (pivot = false → p = 1) ∧
      ∀ (b : Fin n → Num binary64) (z : List (Num binary64)), ∃ y x : Fin n → Num binary64,
        Lu.solve pivot s' z (some (vec b)) = .ok (vec x, true, 1) ∧
        (∀ r, y r = less (b (p r)) (fun c => M r c * y c) 0 r.1) ∧
        ∀ r, x r = less (y r) (fun c => M r c * x c) (r.1 + 1) (n - (r.1 + 1)) / M r r := by
  obtain ⟨p, M1, st, ok, e1, e2⟩ := factorise_rounded rounds_binary64 (by norm_num) pivot s ht hs A
  rw [hf] at e1
  simp only [Out.ok.injEq, Prod.mk.injEq] at e1
  obtain ⟨rfl, rfl⟩ := e1
  obtain rfl := mat_inj.mp hM
  refine ⟨p, (e2 rfl).pivots, fun hp => ((e2 rfl).none hp).2, fun b z => ?_⟩
  exact solve_any pivot _ M1 rfl rfl p (e2 rfl).pivots (fun hp => ((e2 rfl).none hp).2) b z

/-- C199: equations that are not coupled with the others get the solution that they have alone, to the last bit. -/
theorem c199_parts {m n : Nat} {e : Fin m → Fin n} (he : StrictMono e) (pivot : Bool) (s s' u : Lu (Num binary64)) {t : ℚ}
    (ht : 0 < t) (hs : s.tol = fin t) (hu : u.tol = s.tol) (B : Fin n → Fin n → ℚ)
    (hB : ∀ r c, binary64 (B r c) = .fin (B r c)) (h0 : ∀ k c, (∀ l, e l ≠ c) → B (e k) c = 0 ∧ B c (e k) = 0)
    (hf : factorise (Num.arith binary64) pivot s (mat fun r c => (fin (B r c) : Num binary64)) = .ok (s', true))
    (M : Fin n → Fin n → ℚ) (hM : s'.lu = mat fun r c => (fin (M r c) : Num binary64)) :
    ∃ u' : Lu (Num binary64),
      factorise (Num.arith binary64) pivot u (mat fun a b => (fin (B (e a) (e b)) : Num binary64)) = .ok (u', true) ∧
      ∀ (b x : Fin n → ℚ) (z z' : List (Num binary64)), (∀ r, binary64 (b r) = .fin (b r)) →
        Lu.solve pivot s' z (some (vec fun r => (fin (b r) : Num binary64))) = .ok (vec (fun r => fin (x r)), true, 1) →
        Lu.solve pivot u' z' (some (vec fun a => (fin (b (e a)) : Num binary64))) =
          .ok (vec (fun a => fin (x (e a))), true, 1) := by
  have hA : Alone e (fun r c => (fin (B r c) : Num binary64)) (fun a b => fin (B (e a) (e b))) := by
    refine ⟨fun a b => rfl, fun r c hrc => ?_, fun r c => ⟨_, rfl, hB r c⟩⟩
    rw [fin_inj]
    by_cases hr : ∃ k, e k = r
    · obtain ⟨k, rfl⟩ := hr
      exact (h0 k c fun l hl => hrc ⟨fun _ => ⟨l, hl⟩, fun _ => ⟨k, rfl⟩⟩).1
    · by_cases hc : ∃ k, e k = c
      · obtain ⟨k, rfl⟩ := hc
        exact (h0 k r fun l hl => hr ⟨l, hl⟩).2
      · exact absurd (iff_of_false hr hc) hrc
  obtain ⟨M', st', f1, f2, f3, f4⟩ := factorise_alone he pivot s s' u ht hs hu _ _ hA hf _ hM fun r c => ⟨_, rfl⟩
  refine ⟨_, f1, ?_⟩
  intro b x z z' hb hx
  obtain ⟨p, p1, p2, p3⟩ := solve_sweeps pivot s s' ht hs _ hf _ hM
  obtain ⟨p', p1', p2', p3'⟩ := solve_sweeps pivot u _ ht (hu.trans hs) _ f1 M' rfl
  obtain ⟨y, w, k1, k2, k3⟩ := p3 (fun r => fin (b r)) z
  obtain ⟨y', w', k1', k2', k3'⟩ := p3' (fun a => fin (b (e a))) z'
  rw [k1] at hx
  simp only [Out.ok.injEq, Prod.mk.injEq, and_true] at hx
  have hw : ∀ r, w r = fin (x r) := fun r => congrFun (vec_inj.mp hx) r
  have hperm : ∀ a, p (e a) = e (p' a) := by
    cases pivot with
    | false => simp [p2 rfl, p2' rfl]
    | true =>
      intro a
      obtain ⟨q, q', r1, r2, r3⟩ := f3 rfl
      rw [p1 rfl] at r1
      have r2' := p1' rfl
      simp only at r2'
      rw [r2'] at r2
      have s1 := congrFun (vec_inj.mp r1) (e a)
      have s2 := congrFun (vec_inj.mp r2) a
      apply Fin.ext
      rw [s1, r3 a, ← Fin.ext s2]
  have hd : ∀ r, M r r ≠ 0 := by
    intro r
    obtain ⟨d, d1, d2⟩ := f4 r
    rw [fin_inj] at d1
    rwa [d1]
  have g1 : ∀ r, IsFin (less (y r) (fun c => fin (M r c) * w c) (r.1 + 1) (n - (r.1 + 1))) := by
    intro r
    have hq := hw r
    rw [k3 r] at hq
    obtain ⟨v, e1, -⟩ := div_fin (hd r) hq
    exact ⟨v, e1⟩
  have gy : ∀ r, IsFin (y r) := fun r => less_fin (g1 r)
  have hy : ∀ k, ∀ a : Fin m, a.1 = k → y (e a) = y' a ∧ IsDouble (y (e a)) := by
    intro k
    induction k using Nat.strong_induction_on with
    | _ k ih =>
      rintro a rfl
      have hfin := gy (e a)
      rw [k2 (e a)] at hfin
      obtain ⟨l1, l2⟩ := less_embed he (v := fin (b (p (e a)))) ⟨_, rfl, hb _⟩ (g := fun c => M' a c * y' c)
        (fun c _ _ hc => by
          have hz : (fin (M (e a) c) : Num binary64) = fin 0 := f2.zero _ _ fun h' => by
            obtain ⟨l, hl⟩ := h'.mp ⟨a, rfl⟩
            exact hc l hl
          rw [hz, fin_zero_times (gy c)])
        (fun c _ hc => by
          have hca : c.1 < a.1 := he.lt_iff_lt.mp (show e c < e a by simpa using hc)
          rw [(ih c.1 hca c rfl).1, ← f2.same]) hfin
      rw [before_zero, Nat.zero_add, before_at he, Nat.sub_zero] at l1
      rw [k2 (e a), k2' a]
      refine ⟨?_, l2⟩
      rw [l1, hperm]
  have hwv : ∀ k, ∀ a : Fin m, m - 1 - a.1 = k → w (e a) = w' a := by
    intro k
    induction k using Nat.strong_induction_on with
    | _ k ih =>
      rintro a rfl
      have hfin := g1 (e a)
      obtain ⟨l1, -⟩ := less_embed he (hy a.1 a rfl).2 (g := fun c => M' a c * w' c)
        (fun c _ _ hc => by
          have hz : (fin (M (e a) c) : Num binary64) = fin 0 := f2.zero _ _ fun h' => by
            obtain ⟨l, hl⟩ := h'.mp ⟨a, rfl⟩
            exact hc l hl
          rw [hz, fin_zero_times ⟨_, hw c⟩])
        (fun c hc _ => by
          have hca : a.1 < c.1 := he.lt_iff_lt.mp (show e a < e c from hc)
          rw [ih (m - 1 - c.1) (by have := c.2; omega) c rfl, ← f2.same]) hfin
      rw [show (e a).1 + 1 + (n - ((e a).1 + 1)) = n by have := (e a).2; omega, before_all, before_after he] at l1
      rw [k3 (e a), k3' a, l1, (hy a.1 a rfl).1, ← f2.same]
  rw [k1', show w' = fun a => fin (x (e a)) from funext fun a => by rw [← hwv _ a rfl, hw]]

/-- The first and the third of three equations with the elements of C102 meet the hypotheses, with rounding and pivoting; alone
they have the same factors. -/
example : StrictMono (![0, 2] : Fin 2 → Fin 3) ∧ freshDouble.tol = fin (64 * (1 / 2 ^ 52)) ∧
    (∀ r c : Fin 3, binary64 ((![![1, 0, 3], ![0, 5, 0], ![3, 0, 2]] : Fin 3 → Fin 3 → ℚ) r c) =
      .fin ((![![1, 0, 3], ![0, 5, 0], ![3, 0, 2]] : Fin 3 → Fin 3 → ℚ) r c)) ∧
    (∀ (k : Fin 2) (c : Fin 3), (∀ l : Fin 2, (![0, 2] : Fin 2 → Fin 3) l ≠ c) →
      (![![1, 0, 3], ![0, 5, 0], ![3, 0, 2]] : Fin 3 → Fin 3 → ℚ) ((![0, 2] : Fin 2 → Fin 3) k) c = 0 ∧
      (![![1, 0, 3], ![0, 5, 0], ![3, 0, 2]] : Fin 3 → Fin 3 → ℚ) c ((![0, 2] : Fin 2 → Fin 3) k) = 0) ∧
    factorise (Num.arith binary64) true freshDouble [[fin 1, fin 0, fin 3], [fin 0, fin 5, fin 0], [fin 3, fin 0, fin 2]] =
      .ok (⟨true, (Num.arith binary64).tol, [[fin 3, fin 0, fin 2], [fin 0, fin 5, fin 0],
        [fin (6004799503160661 / 2 ^ 54), fin 0, fin (5254199565265579 / 2 ^ 51)]], [2, 1, 0]⟩, true) := by
  refine ⟨?_, rfl, by decide +kernel, by decide +kernel, by decide +kernel⟩
  intro a b h
  fin_cases a <;> fin_cases b <;> simp_all

end Disa.Props
