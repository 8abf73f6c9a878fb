import Verif.Props.Lu
import Verif.Props.Iterative

/-!
# Properties C96 to C99: more about the direct solver
-/

namespace Disa.Props

open Disa Spec Dense Lu

section

variable {K : Type} [Field K] [LinearOrder K] [IsStrictOrderedRing K]

/-! ### C96 -/

theorem pow_pos_of_ne (x : K) (h : x ≠ 0) : 0 < x ^ 2 := by positivity

/-- C96: positive definite matrices, symmetric or not, are factorised without pivoting, if the smallest value of the
quadratic form reaches the tolerance. -/
theorem c96_plain (s : Lu K) (htol : 0 < s.tol) {n : Nat} (A : Fin n → Fin n → K)
    (hA : ∀ u : Fin n → K, s.tol * ∑ i, u i ^ 2 ≤ ∑ i, ∑ j, u i * A i j * u j) :
    ∃ s', factorise (scalars K) false s (mat A) = .ok (s', true) := by
  obtain ⟨s', ok, h1, -⟩ := factorise_returns false s htol A
  cases ok with
  | true => exact ⟨s', h1⟩
  | false =>
    obtain ⟨i, e, he, v, hv, hv1, hv2⟩ := c81_plain s s' htol A h1
    exfalso
    have hrow : ∀ r, r ≤ i → ∑ c, A r c * v c = if r = i then e * v i else 0 := by
      intro r hr
      have h2 := hv2 r hr
      have h3 : ∀ c, (if r = i ∧ c = i then A r c - e else A r c) * v c =
          A r c * v c - if c = i then (if r = i then e * v i else 0) else 0 := by
        intro c
        by_cases hc : c = i
        · subst hc
          by_cases hrc : r = c
          · subst hrc; simp only [and_self, if_true]; ring
          · simp [hrc]
        · simp [hc]
      simp only [h3, Finset.sum_sub_distrib, Finset.sum_ite_eq', Finset.mem_univ, if_true] at h2
      linarith
    have hform : ∑ r, ∑ c, v r * A r c * v c = e * v i ^ 2 := by
      have : ∀ r, ∑ c, v r * A r c * v c = if r = i then e * v i ^ 2 else 0 := by
        intro r
        have h3 : ∑ c, v r * A r c * v c = v r * ∑ c, A r c * v c := by
          rw [Finset.mul_sum]; exact Finset.sum_congr rfl fun c _ => by ring
        rw [h3]
        by_cases hr : r ≤ i
        · rw [hrow r hr]
          by_cases hri : r = i
          · subst hri; simp only [if_true]; ring
          · simp [hri]
        · rw [hv1 r (not_le.mp hr), zero_mul, if_neg]
          rintro rfl; exact hr le_rfl
      simp only [this, Finset.sum_ite_eq', Finset.mem_univ, if_true]
    have h4 := hA v
    rw [hform] at h4
    obtain ⟨c0, hc0⟩ := Function.ne_iff.mp hv
    have hpos : 0 < ∑ r, v r ^ 2 := by
      refine lt_of_lt_of_le ?_ (Finset.single_le_sum (f := fun r => v r ^ 2) (fun r _ => sq_nonneg _) (Finset.mem_univ c0))
      exact pow_pos_of_ne (v c0) hc0
    have h5 : v i ^ 2 ≤ ∑ r, v r ^ 2 :=
      Finset.single_le_sum (f := fun r => v r ^ 2) (fun r _ => sq_nonneg _) (Finset.mem_univ i)
    have h6 : e * v i ^ 2 ≤ |e| * ∑ r, v r ^ 2 :=
      le_trans (mul_le_mul_of_nonneg_right (le_abs_self e) (sq_nonneg _)) (mul_le_mul_of_nonneg_left h5 (abs_nonneg e))
    have h7 : |e| * (∑ r, v r ^ 2) < s.tol * ∑ r, v r ^ 2 := mul_lt_mul_of_pos_right he hpos
    linarith

/-- C96: with pivoting a larger value is enough. -/
theorem c96_pivot (s : Lu K) (htol : 0 < s.tol) {n : Nat} (A : Fin n → Fin n → K)
    (hA : ∀ u : Fin n → K, (n + 1) * (s.tol + defaultAbsolute K) * ∑ i, u i ^ 2 ≤ ∑ i, ∑ j, u i * A i j * u j) :
    ∃ s', factorise (scalars K) true s (mat A) = .ok (s', true) := by
  obtain ⟨s', ok, h1, -⟩ := factorise_returns true s htol A
  cases ok with
  | true => exact ⟨s', h1⟩
  | false =>
    obtain ⟨i, e, he, v, hv, hv2⟩ := c81_pivot s s' htol A h1
    exfalso
    have hrow : ∀ r, ∑ c, A r c * v c = e r * v i := by
      intro r
      have h2 := hv2 r
      have h3 : ∀ c, (if c = i then A r c - e r else A r c) * v c = A r c * v c - if c = i then e r * v i else 0 := by
        intro c
        by_cases hc : c = i
        · subst hc; simp only [if_true]; ring
        · simp [hc]
      simp only [h3, Finset.sum_sub_distrib, Finset.sum_ite_eq', Finset.mem_univ, if_true] at h2
      linarith
    have hform : ∑ r, ∑ c, v r * A r c * v c = ∑ r, v r * (e r * v i) := by
      refine Finset.sum_congr rfl fun r _ => ?_
      rw [← hrow r, Finset.mul_sum]
      exact Finset.sum_congr rfl fun c _ => by ring
    have h4 := hA v
    rw [hform] at h4
    set β := s.tol + defaultAbsolute K with hβ
    have hβ0 : 0 < β := by
      have : (0 : K) ≤ defaultAbsolute K := by unfold defaultAbsolute; positivity
      linarith
    obtain ⟨c0, hc0⟩ := Function.ne_iff.mp hv
    have h5 : v i ^ 2 ≤ ∑ r, v r ^ 2 :=
      Finset.single_le_sum (f := fun r => v r ^ 2) (fun r _ => sq_nonneg _) (Finset.mem_univ i)
    have h6 : ∀ r, v r * (e r * v i) ≤ β * (v r ^ 2 + v i ^ 2) := by
      intro r
      have a1 : v r * (e r * v i) ≤ |e r| * (|v r| * |v i|) := by
        refine le_trans (le_abs_self _) ?_
        rw [abs_mul, abs_mul]
        apply le_of_eq; ring
      have a2 : |v r| * |v i| * 2 ≤ v r ^ 2 + v i ^ 2 := by
        have := sq_nonneg (|v r| - |v i|)
        rw [← sq_abs (v r), ← sq_abs (v i)]
        nlinarith
      have a3 : |e r| * (|v r| * |v i|) ≤ (2 * β) * (|v r| * |v i|) :=
        mul_le_mul_of_nonneg_right (he r).le (by positivity)
      have a4 : β * (|v r| * |v i| * 2) ≤ β * (v r ^ 2 + v i ^ 2) := mul_le_mul_of_nonneg_left a2 hβ0.le
      linarith
    by_cases hvi : v i = 0
    · have hz : ∑ r, v r * (e r * v i) = 0 := Finset.sum_eq_zero fun r _ => by rw [hvi]; ring
      have hpos : 0 < ∑ r, v r ^ 2 := by
        refine lt_of_lt_of_le (pow_pos_of_ne (v c0) hc0)
          (Finset.single_le_sum (f := fun r => v r ^ 2) (fun r _ => sq_nonneg _) (Finset.mem_univ c0))
      have : 0 < ((n : K) + 1) * β * ∑ r, v r ^ 2 := by positivity
      linarith
    · -- the summand of `i` itself is strictly smaller
      have h7 : v i * (e i * v i) < β * (v i ^ 2 + v i ^ 2) := by
        have a1 := pow_pos_of_ne (v i) hvi
        have a2 : e i < 2 * β := lt_of_le_of_lt (le_abs_self _) (he i)
        have := mul_lt_mul_of_pos_right a2 a1
        nlinarith
      have h8 : ∑ r, v r * (e r * v i) < ∑ r, β * (v r ^ 2 + v i ^ 2) :=
        Finset.sum_lt_sum (fun r _ => h6 r) ⟨i, Finset.mem_univ i, h7⟩
      rw [← Finset.mul_sum, Finset.sum_add_distrib, Finset.sum_const, Finset.card_univ, Fintype.card_fin, nsmul_eq_mul] at h8
      have h9 : β * (∑ r, v r ^ 2 + n * v i ^ 2) ≤ β * (∑ r, v r ^ 2 + n * ∑ r, v r ^ 2) := by
        apply mul_le_mul_of_nonneg_left _ hβ0.le
        have := mul_le_mul_of_nonneg_left h5 (Nat.cast_nonneg (α := K) n)
        linarith
      have : ((n : K) + 1) * β * ∑ r, v r ^ 2 = β * (∑ r, v r ^ 2 + n * ∑ r, v r ^ 2) := by ring
      linarith

/-- A matrix that is positive definite and not dominant. -/
example : ∀ u : Fin 2 → ℚ, (2 + 1) * (fresh.tol + defaultAbsolute ℚ) * ∑ i, u i ^ 2 ≤
    ∑ i, ∑ j, u i * (![![1, 2], ![2, 5]] : Fin 2 → Fin 2 → ℚ) i j * u j := by
  intro u
  have h : (2 + 1) * (fresh.tol + defaultAbsolute ℚ) ≤ 1 / 10 := by decide +kernel
  simp only [Fin.sum_univ_two, Matrix.cons_val_zero, Matrix.cons_val_one]
  have h1 : 0 ≤ u 0 ^ 2 + u 1 ^ 2 := by positivity
  have h2 := mul_le_mul_of_nonneg_right h h1
  nlinarith [sq_nonneg (u 0 * 9 / 10 + 2 * u 1), sq_nonneg (u 0), sq_nonneg (u 1), sq_nonneg (9 * u 0 + 20 * u 1)]

/-! ### C97 -/

theorem out_bind_assoc {α β γ : Type} (x : Out α) (f : α → Out β) (g : β → Out γ) :
    (x >>= f >>= g) = (x >>= fun a => f a >>= g) := by cases x <;> rfl

/-- Loops keep a relation between two runs. -/
theorem loop_rel {σ τ : Type} (R : σ → τ → Prop) {f : Nat → σ → Out σ} {g : Nat → τ → Out τ}
    (h : ∀ i s t, R s t → (∃ s' t', f i s = .ok s' ∧ g i t = .ok t' ∧ R s' t') ∨
      (∀ s', f i s ≠ .ok s') ∧ ∀ (α : Type) (F : σ → Out α) (G : τ → Out α), (f i s >>= F) = (g i t >>= G))
    (n : Nat) (s : σ) (t : τ) (hr : R s t) :
    (∃ s' t', loop n f s = .ok s' ∧ loop n g t = .ok t' ∧ R s' t') ∨
      (∀ s', loop n f s ≠ .ok s') ∧ ∀ (α : Type) (F : σ → Out α) (G : τ → Out α), (loop n f s >>= F) = (loop n g t >>= G) := by
  induction n with
  | zero => exact .inl ⟨s, t, rfl, rfl, hr⟩
  | succ n ih =>
    rcases ih with ⟨s', t', h1, h2, h3⟩ | ⟨h1, h2⟩
    · rcases h n s' t' h3 with ⟨s'', t'', h4, h5, h6⟩ | ⟨h4, h5⟩
      · exact .inl ⟨s'', t'', by simp [loop, h1, h4], by simp [loop, h2, h5], h6⟩
      · exact .inr ⟨by simp [loop, h1]; exact h4, fun α F G => by simp only [loop, h1, h2, Out.ok_bind]; exact h5 α F G⟩
    · refine .inr ⟨fun s' hs => ?_, fun α F G => ?_⟩
      · simp only [loop, Out.bind_eq_ok] at hs
        obtain ⟨u, hu, _⟩ := hs
        exact h1 u hu
      · simp only [loop, out_bind_assoc]
        exact h2 α _ _

/-- What a program sees of a factorisation and the solves that follow: the result of the factorisation, and then those of
the solves. -/
def seen {S : Type} [Zero S] [Sub S] [Mul S] [Div S] (F : Arith S) (pivot : Bool) (s : Lu S) (a : List (List S))
    (x : List S) (b : Option (List S)) : Out (Bool × Out (List S × Bool × Nat)) := do
  let (s, ok) ← factorise F pivot s a
  pure (ok, Lu.solve pivot s x b)

/-- C97: what a program sees after a factorisation does not depend on what the solver did before, for all matrices, also
those that are not square, and with any arithmetic. -/
theorem c97_history {S : Type} [Zero S] [Sub S] [Mul S] [Div S] (F : Arith S) (pivot : Bool) (s t : Lu S)
    (h : s.tol = t.tol) (a : List (List S)) (x : List S) (b : Option (List S)) :
    seen F pivot s a x b = seen F pivot t a x b := by
  cases pivot with
  | true =>
    unfold seen factorise
    cases s; cases t
    simp only at h
    subst h
    rfl
  | false =>
    have key := loop_rel (f := factoriseBody F false s.tol) (g := factoriseBody F false s.tol)
      (fun u v => u.1 = v.1 ∧ u.2.2 = v.2.2) (by
        rintro i ⟨l1, p1, k1⟩ ⟨l2, p2, k2⟩ ⟨e1, e2⟩
        simp only at e1 e2
        subst e1 e2
        unfold factoriseBody
        cases k1 with
        | false => exact .inl ⟨_, _, rfl, rfl, rfl, rfl⟩
        | true =>
          simp only [if_true, Bool.false_eq_true, if_false, Out.pure_eq, Out.ok_bind]
          cases hd : rd2 l1 i i with
          | ok d =>
            simp only [Out.ok_bind]
            by_cases hlt : F.lt (F.abs d) s.tol = true
            · simp only [hlt, if_true]
              exact .inl ⟨_, _, rfl, rfl, rfl, rfl⟩
            · simp only [hlt, if_false]
              cases hl : loop (l1.length - (i + 1)) (eliminateRow i) l1 with
              | ok l => exact .inl ⟨_, _, rfl, rfl, rfl, rfl⟩
              | _ => exact .inr ⟨by simp, fun α _ _ => rfl⟩
          | _ => exact .inr ⟨by simp, fun α _ _ => rfl⟩) a.length (a, s.piv, true) (a, t.piv, true) ⟨rfl, rfl⟩
    unfold seen factorise
    rw [← h]
    simp only [Bool.false_eq_true, if_false]
    rcases key with ⟨⟨l1, p1, k1⟩, ⟨l2, p2, k2⟩, h1, h2, h3, h4⟩ | ⟨_, h2⟩
    · simp only at h3 h4
      subst h3 h4
      rw [h1, h2]
      rfl
    · simp only [out_bind_assoc]
      exact h2 _ _ _

/-- A solver that has been used before gives what a new one gives. -/
example : seen (scalars ℚ) false (after (factorise (scalars ℚ) false fresh [[2, 1, 0], [0, 3, 1], [0, 0, 4]])) [[2, 0], [0, 4]] [] (some [2, 4]) =
    .ok (true, .ok ([1, 1], true, 1)) := by decide +kernel

/-! ### C98 -/

/-- C98, as expected of a library that checks sizes: a matrix that is not square is rejected. -/
def C98 (pivot : Bool) : Prop := ∀ (s : Lu ℚ), 0 < s.tol → ∀ (r c : Nat), 0 < r → r ≠ c → ∀ M : Fin r → Fin c → ℚ,
  factorise (scalars ℚ) pivot s (mat M) = .exit 1 ∨ ∃ s', factorise (scalars ℚ) pivot s (mat M) = .ok (s', false)

omit [IsStrictOrderedRing K] [LinearOrder K] in
theorem eliminateRow_rect {r c : Nat} (M : Fin r → Fin c → K) {i k : Nat} (hc : i < c) (hk : i + 1 + k < r) :
    ∃ M' : Fin r → Fin c → K, eliminateRow i k (mat M) = .ok (mat M') := by
  unfold eliminateRow
  rw [rd2_mat M hk hc, Out.ok_bind, rd2_mat M (show i < r by omega) hc, Out.ok_bind, wr2_mat M hk hc, Out.ok_bind,
    sizeColumn_mat (by omega)]
  obtain ⟨t, h1, M', h2⟩ := loop_inv (n := c - (i + 1)) (body := fun j lu => do
      let x ← rd2 lu (i + 1 + k) (i + 1 + j)
      let l ← rd2 lu (i + 1 + k) i
      let u ← rd2 lu i (i + 1 + j)
      wr2 lu (i + 1 + k) (i + 1 + j) (x - l * u))
    (s := mat fun i' j' => if i'.1 = i + 1 + k ∧ j'.1 = i then M ⟨i + 1 + k, hk⟩ ⟨i, hc⟩ / M ⟨i, by omega⟩ ⟨i, hc⟩
      else M i' j')
    (fun _ t => ∃ M' : Fin r → Fin c → K, t = mat M') ⟨_, rfl⟩ (by
      rintro m t hm ⟨M', rfl⟩
      have hj : i + 1 + m < c := by omega
      simp only [rd2_mat M' hk hj, rd2_mat M' hk hc, rd2_mat M' (show i < r by omega) hj, wr2_mat M' hk hj, Out.ok_bind]
      exact ⟨_, rfl, _, rfl⟩)
  exact ⟨M', by rw [h1, h2]⟩

omit [IsStrictOrderedRing K] [LinearOrder K] in
theorem eliminate_rect {r c : Nat} (M : Fin r → Fin c → K) {i : Nat} (hc : i < c) :
    ∃ M' : Fin r → Fin c → K, loop (r - (i + 1)) (eliminateRow i) (mat M) = .ok (mat M') := by
  obtain ⟨t, h1, M', h2⟩ := loop_inv (n := r - (i + 1)) (body := eliminateRow (K := K) i) (s := mat M)
    (fun _ t => ∃ M' : Fin r → Fin c → K, t = mat M') ⟨_, rfl⟩ (by
      rintro m t hm ⟨M', rfl⟩
      obtain ⟨M'', h⟩ := eliminateRow_rect M' hc (show i + 1 + m < r by omega)
      exact ⟨_, h, M'', rfl⟩)
  exact ⟨M', by rw [h1, h2]⟩

theorem search_rect {r c : Nat} (M : Fin r → Fin c → K) {i l : Nat} (hc : i < c) (hl : i + l ≤ r) :
    ∃ mx m, loop l (searchBody (scalars K) (mat M) i) (0, i) = .ok (mx, m) ∧ i ≤ m ∧ (m = i ∨ m < i + l) := by
  obtain ⟨⟨mx, m⟩, h1, h2, h3⟩ := loop_inv (n := l) (body := searchBody (scalars K) (mat M) i) (s := ((0 : K), i))
    (fun k t => i ≤ t.2 ∧ (t.2 = i ∨ t.2 < i + k)) ⟨le_rfl, .inl rfl⟩ (by
      rintro k ⟨mx, m⟩ hk ⟨h2, h3⟩
      obtain ⟨g, hg, -⟩ := nearlyGreater_ok |M ⟨i + k, by omega⟩ ⟨i, hc⟩| mx
      have hg' : (scalars K).nearlyGreater ((scalars K).abs (M ⟨i + k, by omega⟩ ⟨i, hc⟩)) mx (scalars K).rel
        (scalars K).tol = .ok g := hg
      refine ⟨_, by simp only [searchBody, rd2_mat M (show i + k < r by omega) hc, Out.ok_bind, hg']; rfl, ?_⟩
      cases g
      · simp only [Bool.false_eq_true, if_false] at h2 h3 ⊢
        exact ⟨h2, by omega⟩
      · simp only [if_true]
        exact ⟨by omega, by omega⟩)
  exact ⟨mx, m, h1, h2, h3⟩

/-- C98: with pivoting a matrix with more columns than rows is read out of bounds, always. -/
theorem c98_wide_pivot (s : Lu K) {r c : Nat} (hr : 0 < r) (h : r < c) (M : Fin r → Fin c → K) :
    factorise (scalars K) true s (mat M) = .ub := by
  have hs : loop c (searchBody (scalars K) (mat M) 0) ((0 : K), 0) = .ub := by
    obtain ⟨mx, m, h1, -⟩ := search_rect M (i := 0) (l := r) (by omega) (by omega)
    refine loop_fail h h1 ?_
    unfold searchBody rd2
    rw [rd_ub (by simp)]
    rfl
  unfold factorise
  have : loop (mat M).length (factoriseBody (scalars K) true s.tol) (mat M, List.range (sizeColumn (mat M)), true) = .ub := by
    refine loop_fail (i := 0) (by simpa using hr) rfl ?_
    simp only [factoriseBody, if_true, pivotStep, sizeColumn_mat (show r = 0 → c = 0 by omega), Nat.sub_zero, hs]
    rfl
  simp only [if_true, this]
  rfl

theorem pivotStep_rect {r c : Nat} (M : Fin r → Fin c → K) (p : Fin c → Nat) {i : Nat} (hi : i < c) (h : c < r) :
    ∃ (M' : Fin r → Fin c → K) (p' : Fin c → Nat), pivotStep (scalars K) i (mat M, vec p) = .ok (mat M', vec p') := by
  obtain ⟨mx, m, h1, h2, h3⟩ := search_rect M (i := i) (l := c - i) hi (by omega)
  unfold pivotStep
  simp only [sizeColumn_mat (show r = 0 → c = 0 by omega), h1, Out.ok_bind]
  by_cases hm : m = i
  · subst hm
    exact ⟨M, p, by simp⟩
  · have hmc : m < c := by omega
    have hm' : (m != i) = true := by simpa using hm
    rw [if_pos hm', swapAt_ok p ⟨i, hi⟩ ⟨m, hmc⟩, Out.ok_bind, mat_eq_vec, swapAt_ok _ (⟨i, by omega⟩ : Fin r) ⟨m, by omega⟩]
    exact ⟨_, _, rfl⟩

/-- C98: a matrix with more rows than columns is rejected or read out of bounds. -/
theorem c98_tall (pivot : Bool) (s : Lu K) {r c : Nat} (h : c < r) (M : Fin r → Fin c → K) :
    factorise (scalars K) pivot s (mat M) = .ub ∨ ∃ s', factorise (scalars K) pivot s (mat M) = .ok (s', false) := by
  have hsz : sizeColumn (mat M) = c := sizeColumn_mat (by omega) M
  have key : ∀ m, m ≤ r → loop m (factoriseBody (scalars K) pivot s.tol) (mat M, if pivot then List.range c else s.piv, true) = .ub ∨
      ∃ (M' : Fin r → Fin c → K) (st : List Nat) (ok : Bool),
        loop m (factoriseBody (scalars K) pivot s.tol) (mat M, if pivot then List.range c else s.piv, true) = .ok (mat M', st, ok) ∧
        (pivot = true → ∃ p : Fin c → Nat, st = vec p) ∧ (ok = true → m ≤ c) := by
    intro m
    induction m with
    | zero =>
      intro _
      refine .inr ⟨M, _, true, rfl, fun hp => ⟨fun k => k.1, ?_⟩, fun _ => Nat.zero_le _⟩
      rw [hp, if_pos rfl]
      apply List.ext_getElem <;> simp [vec]
    | succ m ih =>
      intro hm
      rcases ih (by omega) with h1 | ⟨M', st, ok, h1, h2, h3⟩
      · exact .inl (by simp [loop, h1])
      · cases ok with
        | false => exact .inr ⟨M', st, false, by simp [loop, h1, factoriseBody], h2, by simp⟩
        | true =>
          have hmc := h3 rfl
          have hpiv : m < c → ∃ (M'' : Fin r → Fin c → K) (st' : List Nat),
              (if pivot then pivotStep (scalars K) m (mat M', st) else Out.ok (mat M', st)) = .ok (mat M'', st') ∧
              (pivot = true → ∃ p : Fin c → Nat, st' = vec p) := by
            intro hmc
            cases pivot with
            | false => exact ⟨M', st, rfl, by simp⟩
            | true =>
              obtain ⟨p, rfl⟩ := h2 rfl
              obtain ⟨M'', p', e⟩ := pivotStep_rect M' p hmc h
              exact ⟨M'', vec p', by rw [if_pos rfl, e], fun _ => ⟨p', rfl⟩⟩
          by_cases hlt : m < c
          · obtain ⟨M'', st', e1, e2⟩ := hpiv hlt
            have hrd : rd2 (mat M'') m m = .ok (M'' ⟨m, by omega⟩ ⟨m, hlt⟩) := rd2_mat M'' _ _
            by_cases hsm : |M'' ⟨m, by omega⟩ ⟨m, hlt⟩| < s.tol
            · refine .inr ⟨M'', st', false, ?_, e2, by simp⟩
              simp only [loop, h1, Out.ok_bind, factoriseBody, if_true, e1, hrd, scalars_lt, hsm, Out.pure_eq]
            · obtain ⟨M3, e3⟩ := eliminate_rect M'' hlt
              refine .inr ⟨M3, st', true, ?_, e2, fun _ => hlt⟩
              simp only [loop, h1, Out.ok_bind, factoriseBody, if_true, e1, hrd, scalars_lt, hsm, Out.pure_eq, if_false, mat_length, e3]
          · -- the diagonal element does not exist
            have hmc' : m = c := by omega
            subst hmc'
            refine .inl ?_
            have hsz' : sizeColumn (mat M') = m := sizeColumn_mat (by omega) M'
            have hpu : (if pivot then pivotStep (scalars K) m (mat M', st) else Out.ok (mat M', st)) = .ok (mat M', st) := by
              cases pivot with
              | false => rfl
              | true => simp [pivotStep, hsz', loop]
            have hrd : rd2 (mat M') m m = .ub := by
              unfold rd2
              rw [rd_mat M' (show m < r by omega), Out.ok_bind, rd_ub (by simp)]
            simp only [loop, h1, Out.ok_bind, factoriseBody, if_true, Out.pure_eq, hpu, hrd]
            rfl
  unfold factorise
  rw [hsz]
  rcases key r le_rfl with h1 | ⟨M', st, ok, h1, -, h3⟩
  · left
    simp only [mat_length, h1]
    rfl
  · right
    cases ok with
    | true => exact absurd (h3 rfl) (by omega)
    | false =>
      simp only [mat_length, h1, Out.ok_bind, Out.pure_eq]
      exact ⟨_, rfl⟩

/-- C98: without pivoting a matrix with more columns than rows is factorised or rejected; if it is factorised, every solve
reads out of bounds. -/
theorem c98_wide_plain (s : Lu K) {r c : Nat} (hr : 0 < r) (h : r < c) (M : Fin r → Fin c → K) :
    ∃ s' ok, factorise (scalars K) false s (mat M) = .ok (s', ok) ∧
      (ok = true → ∀ (b : Fin r → K) (x : List K), Lu.solve false s' x (some (vec b)) = .ub) := by
  obtain ⟨⟨lu, st, ok⟩, h1, M', h2⟩ := loop_inv (n := r) (body := factoriseBody (scalars K) false s.tol) (s := (mat M, s.piv, true))
    (fun _ t => ∃ M' : Fin r → Fin c → K, t.1 = mat M') ⟨_, rfl⟩ (by
      rintro m ⟨lu, st, ok⟩ hm ⟨M', h2⟩
      simp only at h2
      subst h2
      cases ok with
      | false => exact ⟨(mat M', st, false), by simp [factoriseBody], M', rfl⟩
      | true =>
        have hmc : m < c := by omega
        by_cases hsm : |M' ⟨m, hm⟩ ⟨m, hmc⟩| < s.tol
        · refine ⟨(mat M', st, false), ?_, M', rfl⟩
          simp only [factoriseBody, if_true, Bool.false_eq_true, if_false, Out.pure_eq, Out.ok_bind, rd2_mat M' hm hmc, scalars_lt, hsm]
        · obtain ⟨M3, e3⟩ := eliminate_rect M' hmc
          refine ⟨(mat M3, st, true), ?_, M3, rfl⟩
          simp only [factoriseBody, if_true, Bool.false_eq_true, if_false, Out.pure_eq, Out.ok_bind, rd2_mat M' hm hmc, scalars_lt, hsm,
            mat_length, e3])
  simp only at h2
  subst h2
  refine ⟨⟨ok, s.tol, mat M', st⟩, ok, ?_, fun hok b x => ?_⟩
  · unfold factorise
    simp only [mat_length, Bool.false_eq_true, if_false, h1, Out.ok_bind, Out.pure_eq]
  · subst hok
    unfold Lu.solve
    simp only [Option.getD_some, vec_length, mat_length, beq_self_eq_true, assert_true, Out.ok_bind, Bool.not_true,
      Bool.false_eq_true, if_false]
    obtain ⟨x1, hx1⟩ : ∃ x1 : Fin r → K, resizeList x r 0 = vec x1 := by
      refine ⟨fun i => (resizeList x r 0)[i.1]'(by rw [resizeList_length']; exact i.2), ?_⟩
      apply List.ext_getElem
      · simp [resizeList_length']
      · intro k h1 h2; simp [vec]
    rw [hx1]
    obtain ⟨y, e1, y', rfl⟩ := loop_inv (n := r) (body := forwardBody false ⟨true, s.tol, mat M', st⟩ (some (vec b))) (s := vec x1)
      (fun _ t => ∃ y : Fin r → K, t = vec y) ⟨_, rfl⟩ (by
        rintro m t hm ⟨y, rfl⟩
        unfold forwardBody
        simp only [Bool.false_eq_true, if_false, Out.pure_eq, Out.ok_bind, Option.getD_some, rd_vec b hm, wr_vec y hm]
        obtain ⟨z, e2, z', rfl⟩ := loop_inv (n := m) (body := fun c x => do
            let y ← rd x m
            let l ← rd2 (mat M') m c
            let z ← rd x c
            wr x m (y - l * z)) (s := vec fun k : Fin r => if k.1 = m then b ⟨m, hm⟩ else y k)
          (fun _ t => ∃ y : Fin r → K, t = vec y) ⟨_, rfl⟩ (by
            rintro j t hj ⟨y, rfl⟩
            simp only [rd_vec y hm, rd2_mat M' hm (show j < c by omega), rd_vec y (show j < r by omega), Out.ok_bind, wr_vec y hm]
            exact ⟨_, rfl, _, rfl⟩)
        exact ⟨_, e2, _, rfl⟩)
    rw [e1, Out.ok_bind]
    have hb : loop r (fun k x => backwardBody ⟨true, s.tol, mat M', st⟩ (r - 1 - k) x) (vec y') = .ub := by
      refine loop_fail (i := 0) hr rfl ?_
      unfold backwardBody
      have : loop (sizeColumn (mat M') - (r - 1 - 0 + 1)) (fun c x => do
          let y ← rd x (r - 1 - 0)
          let u ← rd2 (mat M') (r - 1 - 0) (r - 1 - 0 + 1 + c)
          let z ← rd x (r - 1 - 0 + 1 + c)
          wr x (r - 1 - 0) (y - u * z)) (vec y') = .ub := by
        rw [sizeColumn_mat (by omega)]
        refine loop_fail (i := 0) (by omega) rfl ?_
        rw [rd_vec y' (show r - 1 - 0 < r by omega), Out.ok_bind, rd2_mat M' (show r - 1 - 0 < r by omega)
          (show r - 1 - 0 + 1 + 0 < c by omega), Out.ok_bind, rd_ub (by simp; omega)]
        rfl
      simp only [this]
      rfl
    simp only [hb]
    rfl

/-- C98 is violated with and without pivoting. -/
theorem c98_violated (pivot : Bool) : ¬ C98 pivot := by
  intro h
  have h' := h fresh (by decide +kernel) 1 2 (by omega) (by omega) ![![1, 0]]
  cases pivot with
  | true =>
    rw [c98_wide_pivot fresh (by omega) (by omega)] at h'
    rcases h' with h' | ⟨_, h'⟩ <;> simp at h'
  | false =>
    have e : factorise (scalars ℚ) false fresh (mat (![![1, 0]] : Fin 1 → Fin 2 → ℚ)) =
        .ok (⟨true, defaultRelative ℚ, [[1, 0]], []⟩, true) := by decide +kernel
    rw [e] at h'
    rcases h' with h' | ⟨_, h'⟩ <;> simp at h'

/-- The part of C98 that holds: a matrix with more rows than columns never counts as factorised.  Missing: the program may
not get that far. -/
theorem c98_tall_partial (pivot : Bool) (s s' : Lu K) {r c : Nat} (h : c < r) (M : Fin r → Fin c → K) (ok : Bool)
    (hf : factorise (scalars K) pivot s (mat M) = .ok (s', ok)) : ok = false := by
  rcases c98_tall pivot s h M with h1 | ⟨t, h1⟩
  · rw [hf] at h1; simp at h1
  · rw [hf] at h1
    simp only [Out.ok.injEq, Prod.mk.injEq] at h1
    exact h1.2

/-- Both outcomes of `c98_tall` occur. -/
example : factorise (scalars ℚ) true fresh (mat (![![1], ![2]] : Fin 2 → Fin 1 → ℚ)) = .ub ∧
    ∃ s', factorise (scalars ℚ) true fresh (mat (![![0], ![2]] : Fin 2 → Fin 1 → ℚ)) = .ok (s', false) :=
  ⟨by decide +kernel, after (factorise (scalars ℚ) true fresh (mat (![![0], ![2]] : Fin 2 → Fin 1 → ℚ))), by decide +kernel⟩

end

/-! ### C99 -/

/-- C99: on strictly diagonally dominant systems Jacobi and Gauss Seidel tend to the vector that the direct solver
returns. -/
theorem c99_dominant {N : Type} {F : Scalars ℝ N} (hF : Exact F) {n : Nat} (A : Fin n → Fin n → ℝ) (hA : Dominant A)
    (pivot : Bool) (d d' : Lu ℝ) (htol : 0 < d.tol) (hf : factorise (scalars ℝ) pivot d (mat A) = .ok (d', true)) (b : Fin n → ℝ)
    (x0 : List ℝ) :
    ∃ sol : Fin n → ℝ, Lu.solve pivot d' x0 (some (vec b)) = .ok (vec sol, true, 1) ∧
      ∀ (m : Sparse ℝ), Square m A → ∀ (k : Method), k ≠ .sor → ∀ (s : FixedPoint ℝ) (x : Fin n → ℝ) (w : List ℝ),
        (k = .jacobi → w.length = n) → TendTo F k s m b x w sol := by
  obtain ⟨sol, h1, h2⟩ := c43_solves pivot d d' htol A hf b x0
  refine ⟨sol, h1, fun m hm k hk s x w hw => ?_⟩
  obtain ⟨sol', _, h4, h5⟩ := c47_converges hF m A hm hA k hk s b x w hw
  rw [h4 sol h2]
  exact h5

/-- C99: on symmetric positive definite systems Gauss Seidel and SOR do. -/
theorem c99_positive_definite {N : Type} {F : Scalars ℝ N} (hF : Exact F) {n : Nat} (A : Fin n → Fin n → ℝ)
    (hA : PositiveDefinite A) (pivot : Bool) (d d' : Lu ℝ) (htol : 0 < d.tol)
    (hf : factorise (scalars ℝ) pivot d (mat A) = .ok (d', true)) (b : Fin n → ℝ) (x0 : List ℝ) :
    ∃ sol : Fin n → ℝ, Lu.solve pivot d' x0 (some (vec b)) = .ok (vec sol, true, 1) ∧
      ∀ (m : Sparse ℝ), Square m A → ∀ (k : Method), k ≠ .jacobi → ∀ (s : FixedPoint ℝ) (x : Fin n → ℝ) (w : List ℝ),
        TendTo F k s m b x w sol := by
  obtain ⟨sol, h1, h2⟩ := c43_solves pivot d d' htol A hf b x0
  refine ⟨sol, h1, fun m hm k hk s x w => ?_⟩
  obtain ⟨sol', _, h4, h5⟩ := c84_converges hF m A hm hA k hk s b x w
  rw [h4 sol h2]
  exact h5

/-- The matrix with 3 on and 1 beside the diagonal meets the hypotheses of both. -/
example : Dominant (![![3, 1], ![1, 3]] : Fin 2 → Fin 2 → ℝ) ∧ PositiveDefinite (![![3, 1], ![1, 3]] : Fin 2 → Fin 2 → ℝ) ∧
    ∃ d', factorise (scalars ℝ) false (⟨false, 1, [], []⟩ : Lu ℝ) (mat ![![3, 1], ![1, 3]]) = .ok (d', true) := by
  refine ⟨?_, ⟨?_, ?_⟩, c82_plain _ (by norm_num) _ ?_⟩
  · intro i
    fin_cases i <;> simp [Fin.sum_univ_two]
  · intro i j
    fin_cases i <;> fin_cases j <;> simp
  · intro v hv
    have h0 : v 0 ≠ 0 ∨ v 1 ≠ 0 := by
      by_contra hc
      rw [not_or, not_not, not_not] at hc
      exact hv (funext fun i => by fin_cases i <;> simp [hc.1, hc.2])
    have hp : 0 < v 0 ^ 2 + v 1 ^ 2 := by
      rcases h0 with h | h <;> positivity
    simp only [Fin.sum_univ_two, Matrix.cons_val_zero, Matrix.cons_val_one]
    nlinarith [sq_nonneg (v 0 + v 1)]
  · intro i
    fin_cases i <;> norm_num [Fin.sum_univ_two]

end Disa.Props
