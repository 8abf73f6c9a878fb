import Verif.Props.LuParts
import Verif.Props.SignFloat

/-!
# Property C202: signs of equations and unknowns do not matter to the direct solver
-/

namespace Disa.Props

open Disa Spec Dense Num Lu

/-! ### Signs -/

/-- The number with the other sign, or the same. -/
def turn (s : Bool) (a : Num binary64) : Num binary64 := if s then -a else a

theorem turn_turn (s t : Bool) (a : Num binary64) : turn s (turn t a) = turn (s ^^ t) a := by
  cases s <;> cases t <;> simp [turn, Double.neg_neg]

theorem turn_mul (s t : Bool) (a b : Num binary64) : turn s a * turn t b = turn (s ^^ t) (a * b) := by
  cases s <;> cases t <;> simp [turn, Double.neg_mul, Double.mul_neg, Double.neg_neg]

theorem turn_sub (s : Bool) (a b : Num binary64) : turn s a - turn s b = turn s (a - b) := by
  cases s
  · rfl
  · show -a - -b = -(a - b)
    rw [Double.sub_eq, Double.sub_eq, Double.neg_add]

theorem div_turn (t : Bool) (a : Num binary64) {b : Num binary64} (hb : b ≠ fin 0) : a / turn t b = turn t (a / b) := by
  cases t
  · rfl
  · show a / -b = -(a / b)
    rcases a with _ | s | p <;> rcases b with _ | t | q
    case fin.fin =>
      have hq : q ≠ 0 := fun h => hb (by rw [h]; rfl)
      show (if -q = 0 then (if p = 0 then Fl.nan else Fl.inf (decide (p < 0))) else binary64 (p / -q)) =
        Fl.neg (if q = 0 then (if p = 0 then Fl.nan else Fl.inf (decide (p < 0))) else binary64 (p / q))
      rw [if_neg (neg_ne_zero.mpr hq), if_neg hq, ← binary64_neg, _root_.div_neg]
    case inf.fin =>
      have hq : q ≠ 0 := fun h => hb (by rw [h]; rfl)
      show Fl.inf (s != decide (-q < 0)) = Fl.neg (Fl.inf (s != decide (q < 0)))
      rw [Double.decide_neg hq]
      cases s <;> cases decide (q < 0) <;> rfl
    case fin.inf => exact Double.neg_zero.symm
    all_goals rfl

theorem turn_div (s t : Bool) (a : Num binary64) {b : Num binary64} (hb : b ≠ fin 0) : turn s a / turn t b = turn (s ^^ t) (a / b) := by
  rw [div_turn t _ hb]
  have : turn s a / b = turn s (a / b) := by
    cases s
    · rfl
    · exact Double.neg_div a b
  rw [this, turn_turn, Bool.xor_comm]

theorem abs_turn (s : Bool) (a : Num binary64) : (Num.arith binary64).abs (turn s a) = (Num.arith binary64).abs a := by
  cases s
  · rfl
  · exact size_minus a

theorem less_turn {n : Nat} (s : Bool) {v v' : Num binary64} (hv : v' = turn s v) {f g : Fin n → Num binary64} {a l : Nat}
    (h : ∀ c : Fin n, a ≤ c.1 → c.1 < a + l → g c = turn s (f c)) : less v' g a l = turn s (less v f a l) := by
  induction l with
  | zero => exact hv
  | succ l ih =>
    have ih := ih fun c h1 h2 => h c h1 (by omega)
    by_cases hl : a + l < n
    · rw [less, dif_pos hl, less, dif_pos hl, ih, h ⟨a + l, hl⟩ (Nat.le_add_right a l) (by simp), turn_sub]
    · rw [less, dif_neg hl, less, dif_neg hl, ih]

/-! ### Factors -/

section

variable {n : Nat} (σ τ : Fin n → Bool)

/-- The factors after `i` steps with rows in the order `p`, for changed signs. -/
def signedFactors (p : Equiv.Perm (Fin n)) (i : Nat) (M : Fin n → Fin n → Num binary64) : Fin n → Fin n → Num binary64 := fun r c =>
  turn (σ (p r) ^^ if c.1 < i ∧ c < r then σ (p c) else τ c) (M r c)

variable {σ τ}

theorem signed_elim (p : Equiv.Perm (Fin n)) (M : Fin n → Fin n → Num binary64) (i : Fin n) (hi : M i i ≠ fin 0) :
    elim (signedFactors σ τ p i.1 M) i = signedFactors σ τ p (i.1 + 1) (elim M i) := by
  funext r c
  by_cases hr : i < r
  · have hr' : i.1 < r.1 := hr
    rcases lt_trichotomy c i with hc | rfl | hc
    · have hc' : c.1 < i.1 := hc
      rw [elim_same _ (.inr hc)]
      unfold signedFactors
      rw [elim_same _ (.inr hc)]
      simp only [hc', Nat.lt_succ_of_lt hc']
    · rw [elim_at _ _ hr]
      unfold signedFactors
      rw [elim_at _ _ hr]
      simp only [lt_irrefl, false_and, if_false, Nat.lt_succ_self, hr, and_self, if_true]
      rw [turn_div _ _ _ hi]
      congr 1
      cases σ (p r) <;> cases τ c <;> cases σ (p c) <;> rfl
    · have hc' : i.1 < c.1 := hc
      rw [elim_past _ i hr hc]
      unfold signedFactors
      rw [elim_past _ i hr hc]
      simp only [lt_irrefl, false_and, if_false, not_lt_of_ge hc'.le, not_lt_of_ge (Nat.succ_le_of_lt hc')]
      rw [turn_div _ _ _ hi, turn_mul, ← turn_sub]
      congr 2
      cases σ (p r) <;> cases τ c <;> cases τ i <;> cases σ (p i) <;> rfl
  · have hr' : r.1 ≤ i.1 := not_lt.mp hr
    rw [elim_same _ (.inl (not_lt.mp hr))]
    unfold signedFactors
    rw [elim_same _ (.inl (not_lt.mp hr))]
    have : (c.1 < i.1 ∧ c < r) ↔ (c.1 < i.1 + 1 ∧ c < r) := by
      constructor
      · rintro ⟨a, b⟩; exact ⟨by omega, b⟩
      · rintro ⟨a, b⟩; exact ⟨by have : c.1 < r.1 := b; omega, b⟩
    simp only [this]

theorem signed_swap (p : Equiv.Perm (Fin n)) (M : Fin n → Fin n → Num binary64) {i l : Fin n} (hl : i ≤ l) :
    (fun r => signedFactors σ τ p i.1 M (Equiv.swap i l r)) = signedFactors σ τ ((Equiv.swap i l).trans p) i.1 (fun r => M (Equiv.swap i l r)) := by
  have hl' : i.1 ≤ l.1 := hl
  funext r c
  unfold signedFactors
  simp only [Equiv.trans_apply]
  by_cases hc : c.1 < i.1
  · have h1 : Equiv.swap i l c = c := Equiv.swap_apply_of_ne_of_ne (by rintro rfl; omega) (by rintro rfl; omega)
    have h2 : c < Equiv.swap i l r ↔ c < r := by
      rcases eq_or_ne r i with rfl | hri
      · rw [Equiv.swap_apply_left]
        exact iff_of_true (show c.1 < l.1 by omega) hc
      · rcases eq_or_ne r l with rfl | hrl
        · rw [Equiv.swap_apply_right]
          exact iff_of_true hc (show c.1 < r.1 by omega)
        · rw [Equiv.swap_apply_of_ne_of_ne hri hrl]
    simp only [h1, h2]
  · simp only [hc, false_and, if_false]

theorem search_any (M : Fin n → Fin n → Num binary64) (i : Fin n) :
    ∃ (mx : Num binary64) (l : Fin n), i ≤ l ∧
      loop (n - i.1) (searchBody (Num.arith binary64) (mat M) i.1) ((0 : Num binary64), i.1) = .ok (mx, l.1) := by
  obtain ⟨⟨mx, m⟩, h1, h2, h3⟩ := loop_inv (n := n - i.1) (body := searchBody (Num.arith binary64) (mat M) i.1)
    (s := ((0 : Num binary64), i.1)) (fun k t => i.1 ≤ t.2 ∧ t.2 < n) ⟨le_rfl, i.2⟩ (by
      rintro k ⟨mx, m⟩ hk ⟨h2, h3⟩
      have hr : i.1 + k < n := by omega
      obtain ⟨g, hg⟩ := nearlyGreater_num (rnd := binary64) ((Num.arith binary64).abs (M ⟨i.1 + k, hr⟩ i)) mx
      unfold searchBody
      rw [rd2_mat M hr i.2, Out.ok_bind]
      simp only [hg, Out.ok_bind]
      refine ⟨_, rfl, ?_⟩
      cases g
      · exact ⟨h2, h3⟩
      · exact ⟨Nat.le_add_right _ _, hr⟩)
  exact ⟨mx, ⟨m, h3⟩, h2, h1⟩

theorem search_signed (p : Equiv.Perm (Fin n)) (M : Fin n → Fin n → Num binary64) (i : Fin n) (j : Nat) (hj : i.1 + j ≤ n)
    (st : Num binary64 × Nat) :
    loop j (searchBody (Num.arith binary64) (mat (signedFactors σ τ p i.1 M)) i.1) st =
      loop j (searchBody (Num.arith binary64) (mat M) i.1) st := by
  induction j with
  | zero => rfl
  | succ j ih =>
    rw [loop, loop, ih (by omega)]
    congr 1
    funext x
    unfold searchBody
    have hr : i.1 + j < n := by omega
    rw [rd2_mat _ hr i.2, rd2_mat _ hr i.2, Out.ok_bind, Out.ok_bind]
    unfold signedFactors
    rw [abs_turn]

/-- Both factorisations take the same steps. -/
theorem factorise_signed (pivot : Bool) (s u : Lu (Num binary64)) {t : ℚ} (ht : 0 < t) (hs : s.tol = fin t) (hu : u.tol = s.tol)
    (A : Fin n → Fin n → Num binary64) :
    ∃ (p : Equiv.Perm (Fin n)) (M M' : Fin n → Fin n → Num binary64) (st st' : List Nat) (ok : Bool),
      factorise (Num.arith binary64) pivot s (mat A) = .ok ({ s with factorised := ok, lu := mat M, piv := st }, ok) ∧
      factorise (Num.arith binary64) pivot u (mat fun r c => turn (σ r ^^ τ c) (A r c)) =
        .ok ({ u with factorised := ok, lu := mat M', piv := st' }, ok) ∧
      (pivot = true → st = (vec fun r => (p r).1) ∧ st' = st) ∧ (pivot = false → p = 1) ∧
      (ok = true → M' = signedFactors σ τ p n M ∧ ∀ r, M r r ≠ fin 0) := by
  set init : List Nat := if pivot then List.range (sizeColumn (mat A)) else s.piv with hinit
  set init' : List Nat := if pivot then List.range (sizeColumn (mat fun r c => turn (σ r ^^ τ c) (A r c))) else u.piv with hinit'
  obtain ⟨_, h2, p, N, N', st, st', ok, rfl, h3, h4, h5, h6⟩ := loop_inv (n := n)
    (body := factoriseBody (Num.arith binary64) pivot s.tol) (s := (mat A, init, true))
    (fun i x => ∃ (p : Equiv.Perm (Fin n)) (N N' : Fin n → Fin n → Num binary64) (st st' : List Nat) (ok : Bool),
      x = (mat N, st, ok) ∧
      loop i (factoriseBody (Num.arith binary64) pivot u.tol) (mat fun r c => turn (σ r ^^ τ c) (A r c), init', true) =
        .ok (mat N', st', ok) ∧
      (pivot = true → st = (vec fun r => (p r).1) ∧ st' = st) ∧ (pivot = false → p = 1) ∧
      (ok = true → N' = signedFactors σ τ p i N ∧ ∀ r : Fin n, r.1 < i → N r r ≠ fin 0))
    ⟨1, A, _, init, init', true, rfl, rfl, fun hp => by
        rw [hinit, hinit', if_pos hp, if_pos hp, sizeColumn_mat (by omega), sizeColumn_mat (by omega), vec_range]
        exact ⟨rfl, rfl⟩, fun _ => rfl, fun _ => ⟨by
        funext r c
        simp [signedFactors], fun r hr => absurd hr (Nat.not_lt_zero _)⟩⟩ (by
      rintro i x hi ⟨p, N, N', st, st', ok, rfl, h1, h3, h4, h5⟩
      cases ok with
      | false =>
        refine ⟨_, rfl, p, N, N', st, st', false, rfl, ?_, h3, h4, by simp⟩
        rw [loop, h1]
        rfl
      | true =>
        obtain ⟨rfl, h6⟩ := h5 rfl
        obtain ⟨p1, N1, st1, st1', e1, e1', hp1, hp2, hdiag⟩ : ∃ (p1 : Equiv.Perm (Fin n)) (N1 : Fin n → Fin n → Num binary64)
            (st1 st1' : List Nat),
            (if pivot then pivotStep (Num.arith binary64) i (mat N, st) else pure (mat N, st)) = .ok (mat N1, st1) ∧
            (if pivot then pivotStep (Num.arith binary64) i (mat (signedFactors σ τ p i N), st') else pure (mat (signedFactors σ τ p i N), st')) =
              .ok (mat (signedFactors σ τ p1 i N1), st1') ∧
            (pivot = true → st1 = (vec fun r => (p1 r).1) ∧ st1' = st1) ∧ (pivot = false → p1 = 1) ∧
            ∀ r : Fin n, r.1 < i → N1 r r ≠ fin 0 := by
          cases pivot with
          | false => exact ⟨p, N, st, st', rfl, rfl, h3, h4, h6⟩
          | true =>
            obtain ⟨rfl, rfl⟩ := h3 rfl
            obtain ⟨mx, l, hl, hsr⟩ := search_any N ⟨i, hi⟩
            refine ⟨(Equiv.swap ⟨i, hi⟩ l).trans p, _, _, _, pivotStep_of_search (fun r => (p r).1) ⟨i, hi⟩ l hsr, ?_,
              fun _ => ⟨rfl, rfl⟩, by simp, fun r hr => ?_⟩
            · rw [← signed_swap (i := ⟨i, hi⟩) p N hl]
              refine pivotStep_of_search (fun r => (p r).1) ⟨i, hi⟩ l (mx := mx) ?_
              rw [search_signed (i := ⟨i, hi⟩) p N (n - i) (by simp; omega)]
              exact hsr
            · rw [Equiv.swap_apply_of_ne_of_ne]
              · exact h6 r hr
              · rintro rfl; exact absurd hr (by simp)
              · rintro rfl
                have : i ≤ r.1 := hl
                omega
        have habs : (Num.arith binary64).abs (signedFactors σ τ p1 i N1 ⟨i, hi⟩ ⟨i, hi⟩) = (Num.arith binary64).abs (N1 ⟨i, hi⟩ ⟨i, hi⟩) :=
          abs_turn _ _
        cases hsmall : (Num.arith binary64).lt ((Num.arith binary64).abs (N1 ⟨i, hi⟩ ⟨i, hi⟩)) s.tol with
        | true =>
          refine ⟨(mat N1, st1, false), ?_, p1, N1, signedFactors σ τ p1 i N1, st1, st1', false, rfl, ?_, hp1, hp2, by simp⟩
          · unfold factoriseBody
            simp only [if_true, e1, Out.ok_bind, rd2_mat N1 hi hi, hsmall]
            rfl
          · rw [loop, h1, Out.ok_bind]
            unfold factoriseBody
            simp only [if_true, e1', Out.ok_bind, rd2_mat _ hi hi, habs, hu, hsmall]
            rfl
        | false =>
          have hne : N1 ⟨i, hi⟩ ⟨i, hi⟩ ≠ fin 0 := by
            intro h0
            have h5 := hsmall
            rw [hs, h0] at h5
            exact ne_zero_of_accepted ht h5 rfl rfl
          refine ⟨_, body_ok ⟨i, hi⟩ e1 hsmall, p1, _, signedFactors σ τ p1 (i + 1) (elim N1 ⟨i, hi⟩), st1, st1', true, rfl, ?_, hp1, hp2,
            fun _ => ⟨rfl, fun r hr => ?_⟩⟩
          · rw [loop, h1, Out.ok_bind, ← signed_elim (i := ⟨i, hi⟩) p1 N1 hne]
            exact body_ok ⟨i, hi⟩ e1' (by simp only [habs, hu, hsmall])
          · rw [elim_same N1 (.inl (show r.1 ≤ i by omega))]
            by_cases hri : r.1 < i
            · exact hdiag r hri
            · obtain rfl : r = ⟨i, hi⟩ := Fin.ext (by show r.1 = i; omega)
              exact hne)
  refine ⟨p, N, N', st, st', ok, ?_, ?_, h4, h5, fun h => ⟨(h6 h).1, fun r => (h6 h).2 r r.2⟩⟩
  · unfold factorise
    rw [mat_length, ← hinit, h2]
    rfl
  · unfold factorise
    rw [mat_length, ← hinit', h3]
    rfl

end

/-! ### The property -/

/-- C202: changing the signs of equations and of unknowns does not change whether the matrix is accepted nor the pivots, and changes
the solution by the signs of the unknowns only, to the last bit, whatever is rounded and also if values become infinite or NaN. -/
theorem c202_signs {n : Nat} (σ τ : Fin n → Bool) (pivot : Bool) (s u : Lu (Num binary64)) {t : ℚ} (ht : 0 < t) (hs : s.tol = fin t)
    (hu : u.tol = s.tol) (A : Fin n → Fin n → Num binary64) :
    ∃ (s' u' : Lu (Num binary64)) (ok : Bool),
      factorise (Num.arith binary64) pivot s (mat A) = .ok (s', ok) ∧
      factorise (Num.arith binary64) pivot u (mat fun r c => if σ r = τ c then A r c else -A r c) = .ok (u', ok) ∧
      (pivot = true → u'.piv = s'.piv) ∧
      (ok = true → ∀ (b : Fin n → Num binary64) (z z' : List (Num binary64)), ∃ x : Fin n → Num binary64,
        Lu.solve pivot s' z (some (vec b)) = .ok (vec x, true, 1) ∧
        Lu.solve pivot u' z' (some (vec fun r => if σ r then -b r else b r)) =
          .ok (vec fun c => if τ c then -x c else x c, true, 1)) := by
  have hA : (fun r c => if σ r = τ c then A r c else -A r c) = fun r c => turn (σ r ^^ τ c) (A r c) := by
    funext r c
    cases σ r <;> cases τ c <;> rfl
  rw [hA]
  obtain ⟨p, M, M', st, st', ok, e1, e2, h1, h2, h3⟩ := factorise_signed (σ := σ) (τ := τ) pivot s u ht hs hu A
  refine ⟨_, _, ok, e1, e2, fun h => (h1 h).2, ?_⟩
  rintro rfl b z z'
  obtain ⟨rfl, h4⟩ := h3 rfl
  obtain ⟨y, x, k1, k2, k3⟩ := solve_any pivot { s with factorised := true, lu := mat M, piv := st } M rfl rfl p
    (fun h => (h1 h).1) h2 b z
  obtain ⟨y', x', k1', k2', k3'⟩ := solve_any pivot { u with factorised := true, lu := mat (signedFactors σ τ p n M), piv := st' } _ rfl rfl p
    (fun h => by rw [← (h1 h).1]; exact (h1 h).2) h2 (fun r => if σ r then -b r else b r) z'
  refine ⟨x, k1, ?_⟩
  rw [k1']
  have hy : ∀ k, ∀ r : Fin n, r.1 = k → y' r = turn (σ (p r)) (y r) := by
    intro k
    induction k using Nat.strong_induction_on with
    | _ k ih =>
      rintro r rfl
      rw [k2 r, k2' r]
      refine less_turn _ rfl fun c _ hc => ?_
      rw [Nat.zero_add] at hc
      rw [ih c.1 hc c rfl]
      unfold signedFactors
      rw [if_pos ⟨c.2, hc⟩, turn_mul]
      congr 1
      cases σ (p r) <;> cases σ (p c) <;> rfl
  have hx : ∀ k, ∀ r : Fin n, n - 1 - r.1 = k → x' r = turn (τ r) (x r) := by
    intro k
    induction k using Nat.strong_induction_on with
    | _ k ih =>
      rintro r rfl
      rw [k3 r, k3' r]
      rw [less_turn (σ (p r)) (hy _ r rfl) (f := fun c => M r c * x c) fun c hc _ => ?_]
      · unfold signedFactors
        rw [if_neg fun h => lt_irrefl _ h.2, turn_div _ _ _ (h4 r)]
        congr 1
        cases σ (p r) <;> cases τ r <;> rfl
      · have hrc : r.1 < c.1 := hc
        rw [ih (n - 1 - c.1) (by have := c.2; omega) c rfl]
        unfold signedFactors
        rw [if_neg fun h => lt_asymm (show r.1 < c.1 from hrc) h.2, turn_mul]
        congr 1
        cases σ (p r) <;> cases τ c <;> rfl
  rw [show x' = fun c => if τ c then -x c else x c from funext fun c => hx _ c rfl]

/-- The matrix of C102 meets the hypotheses, with rounding and pivoting: the second equation and the first unknown with the other
sign. -/
example : freshDouble.tol = fin (64 * (1 / 2 ^ 52)) ∧
    factorise (Num.arith binary64) true freshDouble [[fin 1, fin 3], [fin 3, fin 2]] =
      .ok (⟨true, (Num.arith binary64).tol, [[fin 3, fin 2], [fin (6004799503160661 / 2 ^ 54), fin (5254199565265579 / 2 ^ 51)]],
        [1, 0]⟩, true) ∧
    factorise (Num.arith binary64) true freshDouble [[fin (-1), fin 3], [fin 3, fin (-2)]] =
      .ok (⟨true, (Num.arith binary64).tol, [[fin 3, fin (-2)],
        [fin (-6004799503160661 / 2 ^ 54), fin (5254199565265579 / 2 ^ 51)]], [1, 0]⟩, true) := by
  decide +kernel

end Disa.Props
