import Verif.Props.Permuted
import Verif.Props.Triangular
import Verif.Props.SameFloat
import Verif.Props.Generator
import Verif.Props.Relax
import Verif.Props.ScaledFloat

/-!
# Property C181: Gauss Seidel does the work of two Jacobi iterations

The rows have levels, and each row refers only to itself, to rows of the level below that are numbered before it and to rows of
the level above that are numbered after it.  Lines and grids have such levels in the numbering that the generators give them,
two groups of unknowns that are independent among themselves have them, and so have the vertices of any connected graph
without odd cycles after `breadth_first`.
-/

namespace Disa.Props

open Disa Spec Dense Iterative

/-! ### Iterations of a map -/

section Abstract

variable {S : Type} {n : Nat} {R : (Fin n → S) → Fin n → S} {Fine : S → Prop} {C : Fin n → Fin n → Prop}
  {level : Fin n → Nat} {xs ys : Nat → Fin n → S}

/-- An iteration of Jacobi at twice the pace is an iteration of Gauss Seidel. -/
theorem layered_down (hR : ∀ y z i, (∀ l, C i l → y l = z l) → Fine (y i) → Fine (z i) → R y i = R z i)
    (hC : ∀ i l, C i l → (l < i ∧ level l + 1 = level i) ∨ (i < l ∧ level i + 1 = level l))
    (hx : ∀ j i, xs (j + 1) i = R (xs j) i) (hf : ∀ j i, Fine (xs j i))
    (hy : ∀ k i, ys (k + 1) i = R (fun l => if l < i then ys (k + 1) l else ys k l) i)
    (h0 : ∀ i, ys 0 i = xs (level i) i) (k : Nat) (i : Fin n) : ys k i = xs (2 * k + level i) i := by
  induction k generalizing i with
  | zero => rw [h0, Nat.mul_zero, Nat.zero_add]
  | succ k ih =>
    have main : ∀ p, ∀ i : Fin n, i.1 < p → ys (k + 1) i = xs (2 * (k + 1) + level i) i := by
      intro p
      induction p with
      | zero => intro i hi; omega
      | succ p ihp =>
        intro i hi
        rw [hy, show 2 * (k + 1) + level i = (2 * k + level i + 1) + 1 by omega, hx]
        refine hR _ _ i (fun l hl => ?_) ?_ (hf _ _)
        · rcases hC i l hl with ⟨h1, h2⟩ | ⟨h1, h2⟩
          · have h3 : l.1 < i.1 := h1
            simp only [if_pos h1]
            rw [ihp l (by omega), ← h2]
            congr 1
            omega
          · simp only [if_neg (not_lt.mpr h1.le)]
            rw [ih l, ← h2]
            congr 1
        · simp only [lt_irrefl, if_false]
          rw [ih i]
          exact hf _ _
    exact main (i.1 + 1) i (by omega)

/-- And an iteration of Gauss Seidel, apart from its start, is an iteration of Jacobi at twice the pace. -/
theorem layered_up (hR : ∀ y z i, (∀ l, C i l → y l = z l) → R y i = R z i)
    (hC : ∀ i l, C i l → (l < i ∧ level l + 1 = level i) ∨ (i < l ∧ level i + 1 = level l))
    (hx : ∀ j i, xs (j + 1) i = R (xs j) i)
    (hy : ∀ k i, ys (k + 1) i = R (fun l => if l < i then ys (k + 1) l else ys k l) i) {K : Nat} (hK : ∀ i, level i ≤ 2 * K)
    (h0 : ∀ i, level i % 2 = 0 → xs 0 i = ys (K - level i / 2) i) (t : Nat) (i : Fin n) (ht : t % 2 = level i % 2) :
    xs t i = ys ((2 * K + t - level i) / 2) i := by
  induction t generalizing i with
  | zero =>
    rw [h0 i (by omega)]
    congr 1
    have := hK i
    omega
  | succ t ih =>
    have h1 := hK i
    obtain ⟨q, hq⟩ : ∃ q, (2 * K + (t + 1) - level i) / 2 = q + 1 := ⟨(2 * K + (t + 1) - level i) / 2 - 1, by omega⟩
    rw [hx, hq, hy]
    refine hR _ _ i fun l hl => ?_
    have h2 := hK l
    rcases hC i l hl with ⟨h3, h4⟩ | ⟨h3, h4⟩
    · simp only [if_pos h3]
      rw [ih l (by omega)]
      congr 1
      omega
    · simp only [if_neg (not_lt.mpr h3.le)]
      rw [ih l (by omega)]
      congr 1
      omega

end Abstract

/-! ### Exact arithmetic -/

/-- Elements off the diagonal lead to the level below and to smaller numbers, or to the level above and to larger numbers. -/
def Layered {n : Nat} (E : Fin n → Fin n → Prop) (level : Fin n → Nat) : Prop :=
  ∀ i j, i ≠ j → E i j → (j < i → level j + 1 = level i) ∧ (i < j → level i + 1 = level j)

theorem Layered.sides {n : Nat} {E : Fin n → Fin n → Prop} {level : Fin n → Nat} (h : Layered E level) (i j : Fin n)
    (hij : i ≠ j ∧ E i j) : (j < i ∧ level j + 1 = level i) ∨ (i < j ∧ level i + 1 = level j) := by
  have h1 := h i j hij.1 hij.2
  rcases lt_trichotomy i j with h2 | h2 | h2
  · exact .inr ⟨h2, h1.2 h2⟩
  · exact absurd h2 hij.1
  · exact .inl ⟨h2, h1.1 h2⟩

theorem relaxed_one {n : Nat} {A : Fin n → Fin n → ℝ} {b y z : Fin n → ℝ} {i : Fin n}
    (h : ∀ j, i ≠ j ∧ A i j ≠ 0 → y j = z j) : relaxed A b 1 y i = relaxed A b 1 z i := by
  unfold relaxed
  rw [off_congr fun j h1 h2 => h j ⟨h1, h2⟩]
  ring

section Exact

variable {N : Type} {F : Scalars ℝ N} {n : Nat} {m : Sparse ℝ} {A : Fin n → Fin n → ℝ} {level : Fin n → Nat}

/-- C181: from suitable starting values Gauss Seidel goes through the values of a run of Jacobi, two at a time. -/
theorem c181_jacobi (hF : Exact F) (s s' : FixedPoint ℝ) (h : Square m A) (hd : ∀ i, A i i ≠ 0)
    (hl : Layered (fun i j => A i j ≠ 0) level) (b x : Fin n → ℝ) (w w' : List ℝ) (hw : w.length = n) :
    ∃ xs : Nat → Fin n → ℝ, xs 0 = x ∧
      (∀ j, ∃ v, times (step F .jacobi s m (vec b)) j (vec x, w) = .ok (vec (xs j), v)) ∧
      ∀ k, ∃ v, times (step F .gaussSeidel s' m (vec b)) k (vec fun i => xs (level i) i, w') =
        .ok (vec fun i => xs (2 * k + level i) i, v) := by
  obtain ⟨xs, h1, h2, h3⟩ := iterates hF .jacobi s h hd b x w (fun _ => hw)
  obtain ⟨ys, g1, g2, g3⟩ := iterates hF .gaussSeidel s' h hd b (fun i => xs (level i) i) w' (by simp)
  refine ⟨xs, h1, h2, fun k => ?_⟩
  obtain ⟨v, hv⟩ := g2 k
  refine ⟨v, ?_⟩
  rw [hv]
  congr 3
  funext i
  exact layered_down (R := fun y i => relaxed A b 1 y i) (Fine := fun _ => True) (C := fun i j => i ≠ j ∧ A i j ≠ 0)
    (fun y z i hyz _ _ => relaxed_one hyz) hl.sides (fun j i => by simpa [factor] using h3 j i) (fun _ _ => trivial)
    (fun k i => by simpa [factor] using g3 k i) (fun i => by rw [g1]) k i

/-- C181: from the iteration on that is half the number of levels, each run of Gauss Seidel goes through the values of a run of
Jacobi, two at a time. -/
theorem c181_gauss_seidel (hF : Exact F) (s s' : FixedPoint ℝ) (h : Square m A) (hd : ∀ i, A i i ≠ 0)
    (hl : Layered (fun i j => A i j ≠ 0) level) {K : Nat} (hK : ∀ i, level i ≤ 2 * K) (b x : Fin n → ℝ) (w w' : List ℝ)
    (hw : w.length = n) :
    ∃ xs : Nat → Fin n → ℝ,
      (∀ j, ∃ v, times (step F .jacobi s m (vec b)) j (vec (xs 0), w) = .ok (vec (xs j), v)) ∧
      ∀ k, ∃ v, times (step F .gaussSeidel s' m (vec b)) (K + k) (vec x, w') = .ok (vec fun i => xs (2 * k + level i) i, v) := by
  obtain ⟨ys, g1, g2, g3⟩ := iterates hF .gaussSeidel s' h hd b x w' (by simp)
  obtain ⟨xs, h1, h2, h3⟩ := iterates hF .jacobi s h hd b (fun i => ys (K - level i / 2) i) w (fun _ => hw)
  rw [← h1] at h2
  refine ⟨xs, h2, fun k => ?_⟩
  obtain ⟨v, hv⟩ := g2 (K + k)
  refine ⟨v, ?_⟩
  rw [hv]
  congr 3
  funext i
  rw [layered_up (xs := xs) (ys := ys) (R := fun y i => relaxed A b 1 y i) (C := fun i j => i ≠ j ∧ A i j ≠ 0) (fun y z i hyz => relaxed_one hyz)
    hl.sides (fun j i => by simpa [factor] using h3 j i) (fun k i => by simpa [factor] using g3 k i) hK
    (fun i _ => by rw [h1]) (2 * k + level i) i (by omega)]
  congr 1
  omega

/-- C181: hence one of the two converges from every start if and only if the other does. -/
theorem c181_converges (hF : Exact F) (s s' : FixedPoint ℝ) (h : Square m A) (hd : ∀ i, A i i ≠ 0)
    (hl : Layered (fun i j => A i j ≠ 0) level) (b sol : Fin n → ℝ) (w w' : List ℝ) (hw : w.length = n) :
    (∀ x, TendTo F .jacobi s m b x w sol) ↔ ∀ x, TendTo F .gaussSeidel s' m b x w' sol := by
  have hlev : ∃ K, ∀ i, level i ≤ 2 * K := ⟨∑ i, level i, fun i => by
    have := Finset.single_le_sum (f := level) (fun _ _ => Nat.zero_le _) (Finset.mem_univ i)
    omega⟩
  obtain ⟨K, hK⟩ := hlev
  have inj : ∀ {k : Method} {t : FixedPoint ℝ} {j : Nat} {y z : Fin n → ℝ} {st : List ℝ × List ℝ} {u v : List ℝ},
      times (step F k t m (vec b)) j st = .ok (vec y, u) → times (step F k t m (vec b)) j st = .ok (vec z, v) → y = z := by
    intro k t j y z st u v e1 e2
    rw [e1, Out.ok.injEq, Prod.mk.injEq, vec_inj] at e2
    exact e2.1
  constructor
  · intro hj x
    obtain ⟨xs, h1, h2⟩ := c181_gauss_seidel hF s s' h hd hl hK b x w w' hw
    obtain ⟨zs, h3, h4⟩ := hj (xs 0)
    obtain ⟨ys, -, g2, -⟩ := iterates hF .gaussSeidel s' h hd b x w' (by simp)
    refine ⟨ys, g2, fun ε hε => ?_⟩
    obtain ⟨J, hJ⟩ := h4 ε hε
    refine ⟨K + J, fun j hj' i => ?_⟩
    obtain ⟨k, rfl⟩ : ∃ k, j = K + k := ⟨j - K, by omega⟩
    obtain ⟨v, hv⟩ := h2 k
    obtain ⟨v', hv'⟩ := g2 (K + k)
    rw [inj hv' hv]
    obtain ⟨u, hu⟩ := h1 (2 * k + level i)
    obtain ⟨u', hu'⟩ := h3 (2 * k + level i)
    show |xs (2 * k + level i) i - sol i| < ε
    rw [inj hu hu']
    exact hJ _ (by omega) i
  · intro hg x
    obtain ⟨xs, h1, h2, h3⟩ := iterates hF .jacobi s h hd b x w (fun _ => hw)
    obtain ⟨xs', e0, e1, e2⟩ := c181_jacobi hF s s' h hd hl b x w w' hw
    obtain ⟨zs, f0, f1, f2⟩ := c181_jacobi hF s s' h hd hl b (xs 1) w w' hw
    have hx : ∀ j, xs' j = xs j := fun j => by
      obtain ⟨u, hu⟩ := h2 j
      obtain ⟨u', hu'⟩ := e1 j
      exact inj hu' hu
    have hz : ∀ j, zs j = xs (j + 1) := by
      obtain ⟨zs', k1, k2, k3⟩ := iterates hF .jacobi s h hd b (xs 1) w (fun _ => hw)
      have hzz : ∀ j, zs j = zs' j := fun j => by
        obtain ⟨u, hu⟩ := f1 j
        obtain ⟨u', hu'⟩ := k2 j
        exact inj hu hu'
      intro j
      rw [hzz]
      induction j with
      | zero => exact k1
      | succ j ih =>
        funext i
        have e3 := k3 j i
        have e4 := h3 (j + 1) i
        rw [if_pos rfl] at e3 e4
        rw [e3, e4, ih]
    refine ⟨xs, h2, fun ε hε => ?_⟩
    obtain ⟨ys, a1, a2⟩ := hg fun i => xs' (level i) i
    obtain ⟨us, b1, b2⟩ := hg fun i => zs (level i) i
    obtain ⟨J, hJ⟩ := a2 ε hε
    obtain ⟨J', hJ'⟩ := b2 ε hε
    refine ⟨2 * J + 2 * J' + 2 * K + 2, fun j hj i => ?_⟩
    have hKi := hK i
    rcases Nat.even_or_odd' (j - level i) with ⟨k, hk | hk⟩
    · have hjk : j = 2 * k + level i := by omega
      obtain ⟨u, hu⟩ := a1 k
      obtain ⟨u', hu'⟩ := e2 k
      have := hJ k (by omega) i
      rw [inj hu hu'] at this
      simp only [hx] at this
      rw [hjk]
      exact this
    · have hjk : j = 2 * k + level i + 1 := by omega
      obtain ⟨u, hu⟩ := b1 k
      obtain ⟨u', hu'⟩ := f2 k
      have := hJ' k (by omega) i
      rw [inj hu hu'] at this
      simp only [hz] at this
      rw [hjk]
      exact this

/-- C181: hence Jacobi solves symmetric positive definite systems if they have levels. -/
theorem c181_definite (hF : Exact F) (s : FixedPoint ℝ) (h : Square m A) (hA : PositiveDefinite A)
    (hl : Layered (fun i j => A i j ≠ 0) level) (b sol x : Fin n → ℝ) (hs : Solves A sol b) (w : List ℝ) (hw : w.length = n) :
    TendTo F .jacobi s m b x w sol := by
  refine (c181_converges hF s s h (fun i => (diag_pos hA i).ne') hl b sol w w hw).mpr (fun y => ?_) x
  obtain ⟨sol', -, h2, h3⟩ := c84_converges hF m A h hA .gaussSeidel (by simp) s b y w
  rw [h2 sol hs]
  exact h3

end Exact

/-- C181: without levels Gauss Seidel may converge from every start while Jacobi does not. -/
theorem c181_needed (s : FixedPoint ℝ) : ∃ (m : Sparse ℝ) (A : Fin 3 → Fin 3 → ℝ), Square m A ∧ (∀ i, A i i ≠ 0) ∧
    (∀ (x : Fin 3 → ℝ) w, TendTo reals .gaussSeidel s m (fun _ => 0) x w fun _ => 0) ∧
    ∀ w, w.length = 3 → ¬ TendTo reals .jacobi s m (fun _ : Fin 3 => 0) (fun _ => 1) w fun _ => 0 := by
  refine ⟨_, _, dense3_square (3 / 4 : ℝ), by intro i; simp, fun x w => ?_, fun w hw => ?_⟩
  · obtain ⟨sol, -, h2, h3⟩ := c84_converges (F := reals) ⟨rfl, rfl⟩ _ _ (dense3_square (3 / 4 : ℝ)) dense3_definite .gaussSeidel
      (by simp) s (fun _ => 0) x w
    have := h2 (fun _ => 0) (by intro i; simp)
    subst this
    exact h3
  · rintro ⟨xs, h1, h2⟩
    obtain ⟨J, hJ⟩ := h2 1 one_pos
    obtain ⟨w', h3⟩ := h1 J
    obtain ⟨p', w'', h4, h5⟩ := dense3_times s J 1 w hw (by simp)
    rw [h4, Out.ok.injEq, Prod.mk.injEq, vec_inj] at h3
    have h6 := hJ J le_rfl 0
    rw [← h3.1] at h6
    simp at h6
    linarith

/-! ### Doubles -/

section Doubles

open Num Sparse

/-- With the factor one the old value of an unknown does not matter, unless it is not finite. -/
theorem newValue_one (sqrt : Num binary64 → Num binary64) {L : Rows (Num binary64)} {n : Nat} {b y z : Fin n → Num binary64}
    {d : Num binary64} {i : Fin n} (h : ∀ j : Fin n, i ≠ j ∧ entry L i j ≠ none → y j = z j) (hy : ∃ q, y i = fin q)
    (hz : ∃ q, z i = fin q) (hb : Bounded n L) :
    newValue (floats binary64 sqrt) L b (fin 1) d y i = newValue (floats binary64 sqrt) L b (fin 1) d z i := by
  obtain ⟨q, hq⟩ := hy
  obtain ⟨q', hq'⟩ := hz
  unfold newValue
  have e0 : ((floats binary64 sqrt).one - fin 1 : Num binary64) = 0 := by
    show ((fin 1 : Num binary64) - fin 1) = 0
    decide +kernel
  have e1 : (row L i).foldl (fun v e => if e.1 = i.1 then v else v + e.2 * (vec y).getD e.1 0) 0 =
      (row L i).foldl (fun v e => if e.1 = i.1 then v else v + e.2 * (vec z).getD e.1 0) 0 := by
    apply List.foldl_ext
    intro t e he
    by_cases hei : e.1 = i.1
    · simp [hei]
    · rw [if_neg hei, if_neg hei]
      have hlt : e.1 < n := hb i.1 e he
      have hent : entry L i.1 e.1 ≠ none := by
        unfold entry
        rw [ne_eq, lookup_eq_none, not_not]
        exact List.mem_map_of_mem he
      have := h ⟨e.1, hlt⟩ ⟨fun hc => hei (congrArg Fin.val hc).symm, hent⟩
      simp only [vec, List.getD_eq_getElem?_getD, List.getElem?_ofFn, hlt, dif_pos, this]
  rw [e0, e1, hq, hq', zero_mul_fin, zero_mul_fin]

/-- C181: the same holds with doubles, as long as the values of Jacobi are finite.  The order of the additions does not matter
since both add the products of a row in the same order. -/
theorem c181_doubles (sqrt : Num binary64 → Num binary64) (s s' : FixedPoint (Num binary64)) {n : Nat} {m : Sparse (Num binary64)}
    {A : Fin n → Fin n → Num binary64} (h : Square m A) (hd : ∀ i : Fin n, Spec.lookup m i i ≠ .ok none) {level : Fin n → Nat}
    (hl : Layered (fun i j : Fin n => Spec.lookup m i j ≠ .ok none) level) (b : Fin n → Num binary64)
    (w w' : List (Num binary64)) (hw : w.length = n) (xs : Nat → Fin n → Num binary64)
    (hxs : ∀ j, ∃ v, times (step (floats binary64 sqrt) .jacobi s m (vec b)) j (vec (xs 0), w) = .ok (vec (xs j), v))
    (hfin : ∀ j i, ∃ q, xs j i = fin q) (k : Nat) :
    ∃ v, times (step (floats binary64 sqrt) .gaussSeidel s' m (vec b)) k (vec fun i => xs (level i) i, w') =
      .ok (vec fun i => xs (2 * k + level i) i, v) := by
  obtain ⟨L, g1, g2, g3, g4, g5⟩ := square_rep h
  have hlook : ∀ i j : Fin n, Spec.lookup m i j = .ok (entry L i j) := fun i j => lookup_ok g1 (by rw [g4]; exact i.2) j
  have hD : ∀ i : Fin n, ∃ v, entry L i i = some v := by
    intro i
    have := hd i
    rw [hlook] at this
    cases he : entry L i i with
    | none => rw [he] at this; exact absurd rfl this
    | some v => exact ⟨v, rfl⟩
  choose D hD using hD
  -- the runs
  have run : ∀ (k : Method) (t : FixedPoint (Num binary64)) (x : Fin n → Num binary64) (u : List (Num binary64)),
      k ≠ .sor → (k = .jacobi → u.length = n) → ∃ zs : Nat → Fin n → Num binary64, zs 0 = x ∧
        (∀ j, ∃ v, times (step (floats binary64 sqrt) k t m (vec b)) j (vec x, u) = .ok (vec (zs j), v)) ∧
        ∀ j i, zs (j + 1) i = newValue (floats binary64 sqrt) L b (fin 1) (D i)
          (fun l => if k ≠ .jacobi ∧ l < i then zs (j + 1) l else zs j l) i := by
    intro k t x u hk hu
    have hall : ∀ j, ∃ (y : Fin n → Num binary64) (u' : List (Num binary64)),
        times (step (floats binary64 sqrt) k t m (vec b)) j (vec x, u) = .ok (vec y, u') ∧ (k = .jacobi → u'.length = n) := by
      intro j
      induction j with
      | zero => exact ⟨x, u, rfl, hu⟩
      | succ j ih =>
        obtain ⟨y, u', h1, h2⟩ := ih
        obtain ⟨z, u'', h3, h4, -⟩ := step_gen (floats binary64 sqrt) k t g1 g3 g4 D hD b y u' h2
        exact ⟨z, u'', by rw [times_succ_right, h1]; exact h3, h4⟩
    choose zs us h1 h2 using hall
    refine ⟨zs, ?_, fun j => ⟨_, h1 j⟩, fun j => ?_⟩
    · have := h1 0
      unfold times at this
      rw [Out.ok.injEq, Prod.mk.injEq, vec_inj] at this
      exact this.1.symm
    · obtain ⟨z, u'', h3, h4, h5⟩ := step_gen (floats binary64 sqrt) k t g1 g3 g4 D hD b (zs j) (us j) (h2 j)
      have := h1 (j + 1)
      rw [times_succ_right, h1 j] at this
      change step (floats binary64 sqrt) k t m (vec b) (vec (zs j), us j) = _ at this
      rw [h3, Out.ok.injEq, Prod.mk.injEq, vec_inj] at this
      rw [← this.1]
      rw [if_neg hk] at h5
      exact h5
  obtain ⟨zs, a0, a1, a2⟩ := run .jacobi s (xs 0) w (by simp) (fun _ => hw)
  obtain ⟨ys, b0, b1, b2⟩ := run .gaussSeidel s' (fun i => xs (level i) i) w' (by simp) (by simp)
  have hz : zs = xs := by
    funext j
    obtain ⟨v, hv⟩ := a1 j
    obtain ⟨v', hv'⟩ := hxs j
    rw [hv, Out.ok.injEq, Prod.mk.injEq, vec_inj] at hv'
    exact hv'.1
  subst hz
  obtain ⟨v, hv⟩ := b1 k
  refine ⟨v, ?_⟩
  rw [hv]
  congr 3
  funext i
  refine layered_down (R := fun y i => newValue (floats binary64 sqrt) L b (fin 1) (D i) y i) (Fine := fun v => ∃ q, v = fin q)
    (C := fun i j => i ≠ j ∧ Spec.lookup m i j ≠ .ok none) (fun y z i hyz h1 h2 => newValue_one sqrt (fun j hj => hyz j ⟨hj.1, ?_⟩) h1 h2 g3)
    hl.sides (fun j i => by simpa using a2 j i) hfin (fun k i => by simpa using b2 k i) (fun i => by rw [b0]) k i
  rw [hlook]
  intro hc
  exact hj.2 (Out.ok.inj hc)

end Doubles

/-! ### Numberings with levels -/

/-- C181: the numbering of a line. -/
theorem c181_line (n : Nat) (h2 : 2 ≤ n) (hn : n < sizeMax) :
    ∃ g, Graph.createLine false n = .ok g ∧ g.sizeVertex = n ∧ Layered (fun i j : Fin n => Adj g i j) fun i => i.1 := by
  obtain ⟨g, h1, -, h3, h4⟩ := c27_line false n h2 hn
  refine ⟨g, h1, h3, fun i j hij ha => ?_⟩
  change Adj g i j at ha
  rw [h4] at ha
  constructor
  · intro h
    have : j.1 < i.1 := h
    simp only
    omega
  · intro h
    have : i.1 < j.1 := h
    simp only
    omega

/-- C181: the numbering of a grid. -/
theorem c181_grid (n : Nat) (h2 : 2 ≤ n) (hn : n * n < sizeMax) :
    ∃ g, Graph.createStructured false n = .ok g ∧ g.sizeVertex = n * n ∧
      Layered (fun i j : Fin (n * n) => Adj g i j) fun i => i.1 % n + i.1 / n := by
  obtain ⟨g, h1, -, h3, h4⟩ := c28_structured false n h2 hn
  refine ⟨g, h1, h3, fun i j hij ha => ?_⟩
  change Adj g i j at ha
  show (j < i → j.1 % n + j.1 / n + 1 = i.1 % n + i.1 / n) ∧ (i < j → i.1 % n + i.1 / n + 1 = j.1 % n + j.1 / n)
  have hi : i.1 / n * n + i.1 % n = i.1 := by rw [Nat.mul_comm]; exact Nat.div_add_mod _ _
  have hj : j.1 / n * n + j.1 % n = j.1 := by rw [Nat.mul_comm]; exact Nat.div_add_mod _ _
  have h0 : 0 < n := by omega
  have hdi : i.1 / n < n := Nat.div_lt_of_lt_mul i.2
  have hdj : j.1 / n < n := Nat.div_lt_of_lt_mul j.2
  have := h4 (i.1 % n) (i.1 / n) (j.1 % n) (j.1 / n) (Nat.mod_lt _ h0) hdi (Nat.mod_lt _ h0) hdj
  rw [hi, hj] at this
  have hcases := this.mp ha
  have hmi := Nat.mod_lt i.1 h0
  have hmj := Nat.mod_lt j.1 h0
  generalize i.1 / n = yi at *
  generalize j.1 / n = yj at *
  generalize i.1 % n = xi at *
  generalize j.1 % n = xj at *
  have key : ∀ a b : Nat, a + 1 = b → b * n = a * n + n := fun a b e => by subst e; ring
  rcases hcases with ⟨rfl, e⟩ | ⟨rfl, e⟩ | ⟨-, ⟨rfl, e⟩ | ⟨rfl, e⟩⟩ <;> constructor <;> intro h <;>
    (have h' := Fin.lt_def.mp h) <;> first | omega | (have := key _ _ e; omega)

/-- C181: two groups, each of unknowns that are independent among themselves. -/
theorem c181_groups {n : Nat} (E : Fin n → Fin n → Prop) (r : Nat) (h : ∀ i j, i ≠ j → E i j → (i.1 < r ↔ r ≤ j.1)) :
    Layered E fun i => if i.1 < r then 0 else 1 := by
  intro i j hij hE
  have := h i j hij hE
  constructor <;> intro hlt <;> have hlt := Fin.lt_def.mp hlt <;> simp only <;> split <;> split <;> omega

/-- The parity of a walk in a graph with two sides. -/
theorem walk_side {E : Nat → Nat → Prop} {side : Nat → Bool} (hs : ∀ u v, E u v → side u ≠ side v) {k u v : Nat}
    (h : Walk E k u v) : (side u = side v ↔ k % 2 = 0) := by
  induction k generalizing v with
  | zero =>
    cases h
    simp
  | succ k ih =>
    obtain ⟨w, h1, h2⟩ := h
    have h3 := ih h1
    have h4 := hs w v h2
    rcases Nat.mod_two_eq_zero_or_one k with h5 | h5
    · have h6 := h3.mpr h5
      constructor
      · intro h7
        exact absurd (h6.symm.trans h7) h4
      · intro h7
        omega
    · constructor
      · intro _
        omega
      · intro _
        have h6 : side u ≠ side w := fun e => by have := h3.mp e; omega
        cases hu : side u <;> cases hv : side v <;> cases hw : side w <;> simp_all

/-- A renumbering by distance from a root, of a graph with two sides. -/
theorem layered_of_distance {g g' : Graph} (h : Reachable false g) (side : Nat → Bool)
    (hs : ∀ u v, Adj g u v → side u ≠ side v) {root : Nat} (hc : Spans (Adj g) g.sizeVertex root) {p : List Nat}
    (hp : p.Perm (List.range g.sizeVertex)) (hg : g.reorder p = .ok (g', g))
    (hord : ∀ u v a b j k, p[u]? = some a → p[v]? = some b → a < b → IsDist (Adj g) (· = root) u j →
      IsDist (Adj g) (· = root) v k → j ≤ k) :
    ∃ level, Layered (fun i j : Fin g.sizeVertex => Adj g' i j) level := by
  obtain ⟨g1, h5, -, -, h6⟩ := c08_reorder false g h p hp
  rw [hg, Out.ok.injEq, Prod.mk.injEq] at h5
  obtain ⟨rfl, -⟩ := h5
  have hlen : p.length = g.sizeVertex := by rw [hp.length_eq, List.length_range]
  have hold : ∀ i : Fin g.sizeVertex, ∃ u, ∃ hu : u < p.length, p[u] = i.1 := by
    intro i
    have : i.1 ∈ p := hp.mem_iff.mpr (List.mem_range.mpr i.2)
    obtain ⟨u, hu, e⟩ := List.getElem_of_mem this
    exact ⟨u, hu, e⟩
  choose o ho1 ho2 using hold
  have hdist : ∀ i, ∃ k, IsDist (Adj g) (· = root) (o i) k := fun i =>
    reached_iff.mp (hc (o i) (by rw [← hlen]; exact ho1 i))
  choose level hlev using hdist
  have hpar : ∀ i, (side root = side (o i) ↔ level i % 2 = 0) := fun i => by
    obtain ⟨⟨s, rfl, hw⟩, -⟩ := hlev i
    exact walk_side hs hw
  have hget : ∀ i, p[o i]? = some i.1 := fun i => by rw [List.getElem?_eq_getElem (ho1 i), ho2 i]
  have hsymm : ∀ u v, Adj g u v → Adj g v u := by
    obtain ⟨L, hr, hgood⟩ := Graph.reach_rep h
    rw [hr.adj_eq]
    exact fun u v => hgood.symm rfl u v
  refine ⟨level, fun i j hij ha => ?_⟩
  have hA : Adj g (o i) (o j) := by
    have := h6 (o i) (o j) (ho1 i) (ho1 j)
    rw [ho2, ho2] at this
    exact this.mp ha
  have h7 := (hlev i).le_succ hA (hlev j)
  have h8 := (hlev j).le_succ (hsymm _ _ hA) (hlev i)
  have h9 : level i % 2 ≠ level j % 2 := by
    intro e
    have h10 := hpar i
    have h11 := hpar j
    rw [e, ← h11] at h10
    have h12 := hs _ _ hA
    cases hr : side root <;> cases hi : side (o i) <;> cases hj : side (o j) <;> simp_all
  constructor
  · intro hlt
    have := hord _ _ _ _ _ _ (hget j) (hget i) hlt (hlev j) (hlev i)
    omega
  · intro hlt
    have := hord _ _ _ _ _ _ (hget i) (hget j) hlt (hlev i) (hlev j)
    omega

/-- C181: the numbering of a connected graph without odd cycles after `breadth_first` or `cuthill_mckee`. -/
theorem c181_reordered (sort : List (Nat × Nat) → List (Nat × Nat)) (hsort : DegreeSort sort) (g g' : Graph)
    (h : Reachable false g) (side : Nat → Bool) (hs : ∀ u v, Adj g u v → side u ≠ side v) (root : Nat)
    (hroot : root < g.sizeVertex) (p : List Nat) (hp : g.breadthFirst root = .ok p ∨ g.cuthillMckee sort root = .ok p)
    (hg : g.reorder p = .ok (g', g)) : ∃ level, Layered (fun i j : Fin g.sizeVertex => Adj g' i j) level := by
  have hn := Graph.reach_small h
  have hc : Spans (Adj g) g.sizeVertex root := by
    by_contra hc
    rcases hp with hp | hp
    · rw [c17_disconnected_exits g h root (by omega) (.inr hc)] at hp
      simp at hp
    · rw [c19_disconnected_exits sort hsort g h root (by omega) (by omega) (.inr hc)] at hp
      simp at hp
  rcases hp with hp | hp
  · obtain ⟨q, h1, h2, -⟩ := c17_breadth_first g h root hroot hc
    rw [hp] at h1
    cases h1
    exact layered_of_distance h side hs hc h2 hg fun u v a b j k hu hv hab hj hk =>
      c18_level_order g h root hroot p hp u v a b j k hu hv hab hj hk
  · obtain ⟨q, h1, h2, -⟩ := c19_cuthill_mckee sort hsort g h root hroot hc
    rw [hp] at h1
    cases h1
    exact layered_of_distance h side hs hc h2 hg fun u v a b j k hu hv hab hj hk =>
      (c56_cuthill_mckee_rule sort hsort g h root hroot p hp u v a b hu hv hab).1 j k hj hk

/-! ### Examples -/

/-- The matrix of a line with three unknowns. -/
def line3 {K : Type} (a b c : K) : Sparse K := ⟨[0, 2, 5, 7], [0, 1, 0, 1, 2, 1, 2], [a, b, c, a, b, c, a], 3⟩

/-- The hypotheses of the exact theorems hold for it. -/
example : Square (line3 (2 : ℝ) (-1) (-1)) ![![2, -1, 0], ![-1, 2, -1], ![0, -1, 2]] ∧
    (∀ i, (![![2, -1, 0], ![-1, 2, -1], ![0, -1, 2]] : Fin 3 → Fin 3 → ℝ) i i ≠ 0) ∧
    Layered (fun i j => (![![2, -1, 0], ![-1, 2, -1], ![0, -1, 2]] : Fin 3 → Fin 3 → ℝ) i j ≠ 0) fun i => i.1 := by
  refine ⟨⟨Built.ofLists (nz := [0, 2, 5, 7]) (ix := [0, 1, 0, 1, 2, 1, 2]) (vs := [2, -1, -1, 2, -1, -1, 2]) (c := 3)
    (by simp [sizeMax]) (by simp [sizeMax])
    (by simp [line3, Sparse.ofLists, loop, Sparse.listBody, rd, slice, overwrite, assert]), rfl, rfl, ?_⟩, ?_, ?_⟩
  · intro i j
    fin_cases i <;> fin_cases j <;> rfl
  · intro i; fin_cases i <;> simp
  · intro i j hij ha
    fin_cases i <;> fin_cases j <;> simp at hij ha ⊢

/-- It is positive definite. -/
example : PositiveDefinite (![![2, -1, 0], ![-1, 2, -1], ![0, -1, 2]] : Fin 3 → Fin 3 → ℝ) := by
  refine ⟨by intro i j; fin_cases i <;> fin_cases j <;> rfl, fun v hv => ?_⟩
  have h1 : (∑ i : Fin 3, ∑ j : Fin 3, v i * (![![2, -1, 0], ![-1, 2, -1], ![0, -1, 2]] : Fin 3 → Fin 3 → ℝ) i j * v j) =
      v 0 ^ 2 + (v 0 - v 1) ^ 2 + (v 1 - v 2) ^ 2 + v 2 ^ 2 := by
    simp [Fin.sum_univ_three]
    ring
  rw [h1]
  by_contra hc
  have e0 : v 0 = 0 := by nlinarith [sq_nonneg (v 0), sq_nonneg (v 0 - v 1), sq_nonneg (v 1 - v 2), sq_nonneg (v 2)]
  have e2 : v 2 = 0 := by nlinarith [sq_nonneg (v 0), sq_nonneg (v 0 - v 1), sq_nonneg (v 1 - v 2), sq_nonneg (v 2)]
  have e1 : v 0 - v 1 = 0 := by nlinarith [sq_nonneg (v 0), sq_nonneg (v 0 - v 1), sq_nonneg (v 1 - v 2), sq_nonneg (v 2)]
  exact hv (funext fun i => by fin_cases i; exacts [e0, by show v 1 = 0; linarith, e2])

section DoublesExample

open Num Sparse

/-- The values of Jacobi for two unknowns, where the second depends on the first. -/
def runs : Nat → Fin 2 → Num binary64
  | 0 => ![fin 0, fin 0]
  | 1 => ![fin 1, fin 1]
  | _ => ![fin 1, fin (3 / 2)]

/-- The hypotheses of `c181_doubles` hold for a system with two unknowns, the second of which depends on the first. -/
example :
    let m : Sparse (Num binary64) := ⟨[0, 1, 3], [0, 0, 1], [fin 1, fin (-1 / 2), fin 1], 2⟩
    (∀ i : Fin 2, Spec.lookup m i i ≠ .ok none) ∧ Layered (fun i j : Fin 2 => Spec.lookup m i j ≠ .ok none) (fun i => i.1) ∧
      (∀ j, ∃ v, times (step (floats binary64 root64) .jacobi ⟨⟨0, 1, fin 0⟩, [], fin 1⟩ m (vec fun _ : Fin 2 => fin 1)) j
        (vec (runs 0), [0, 0]) = .ok (vec (runs j), v)) ∧ ∀ j i, ∃ q, runs j i = fin q := by
  intro m
  refine ⟨by intro i; fin_cases i <;> decide +kernel, ?_, ?_, ?_⟩
  · intro i j hij ha
    fin_cases i <;> fin_cases j
    · exact absurd rfl hij
    · exact absurd rfl ha
    · simp
    · exact absurd rfl hij
  · have h3 : ∀ j, times (step (floats binary64 root64) .jacobi ⟨⟨0, 1, fin 0⟩, [], fin 1⟩ m (vec fun _ : Fin 2 => fin 1)) (j + 3)
        (vec (runs 0), [0, 0]) = .ok ([fin 1, fin (3 / 2)], [fin 1, fin (3 / 2)]) := by
      intro j
      induction j with
      | zero => decide +kernel
      | succ j ih =>
        rw [show j + 1 + 3 = (j + 3) + 1 by omega, times_succ_right, ih]
        decide +kernel
    intro j
    rcases j with _ | _ | _ | j
    · exact ⟨[0, 0], rfl⟩
    · exact ⟨[0, 0], by decide +kernel⟩
    · exact ⟨[fin 1, fin 1], by decide +kernel⟩
    · exact ⟨_, h3 j⟩
  · intro j i
    rcases j with _ | _ | j <;> fin_cases i <;> exact ⟨_, rfl⟩

end DoublesExample

/-- The hypotheses of `c181_reordered` hold for a square of four vertices. -/
example : Reachable false ⟨[1, 2, 0, 3, 0, 3, 1, 2], [0, 2, 4, 6, 8]⟩ ∧
    (∀ u v, Adj ⟨[1, 2, 0, 3, 0, 3, 1, 2], [0, 2, 4, 6, 8]⟩ u v →
      (fun k => k == 1 || k == 2 : Nat → Bool) u ≠ (fun k => k == 1 || k == 2 : Nat → Bool) v) ∧
    Graph.breadthFirst ⟨[1, 2, 0, 3, 0, 3, 1, 2], [0, 2, 4, 6, 8]⟩ 1 = .ok [1, 0, 3, 2] := by
  refine ⟨⟨[.insert ⟨0, 1⟩, .insert ⟨0, 2⟩, .insert ⟨1, 3⟩, .insert ⟨2, 3⟩], by simp [Op.Valid, sizeMax], by decide⟩, ?_,
    by decide +kernel⟩
  rintro u v ⟨r, hr, hv⟩
  rcases u with _ | _ | _ | _ | u
  · cases hr; revert v; decide
  · cases hr; revert v; decide
  · cases hr; revert v; decide
  · cases hr; revert v; decide
  · rw [show Graph.nbrs ⟨[1, 2, 0, 3, 0, 3, 1, 2], [0, 2, 4, 6, 8]⟩ (u + 1 + 1 + 1 + 1) = .exit 1 by
      unfold Graph.nbrs
      rw [decide_eq_false (by show ¬ u + 1 + 1 + 1 + 1 < 4; omega)]
      rfl] at hr
    cases hr

end Disa.Props
