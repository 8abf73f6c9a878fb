import Verif.Solver.Lu
import Verif.Dense.Mat
import Verif.Props.Scalar
import Mathlib.Tactic.Ring
import Mathlib.Tactic.Linarith
import Mathlib.Tactic.FieldSimp
import Mathlib.Algebra.BigOperators.Ring.Finset
import Mathlib.LinearAlgebra.Dimension.Finrank
import Mathlib.LinearAlgebra.FiniteDimensional.Lemmas
import Mathlib.LinearAlgebra.Dimension.Constructions

/-!
# Invariants of the factorisation and the sweeps
-/

namespace Disa.Lu

open Disa Spec Dense

/-! ### Loops -/

section

variable {K : Type} [Zero K] [Sub K] [Mul K] [Div K]

/-- Row `j` after elimination with row `i`. -/
def elimRow {n : Nat} (M : Fin n → Fin n → K) (i j : Fin n) : Fin n → Fin n → K := fun r c =>
  if r = j then (if c = i then M j i / M i i else if i < c then M j c - M j i / M i i * M i c else M j c) else M r c

/-- The matrix after elimination with row `i`. -/
def elim {n : Nat} (M : Fin n → Fin n → K) (i : Fin n) : Fin n → Fin n → K := fun r c =>
  if i < r then (if c = i then M r i / M i i else if i < c then M r c - M r i / M i i * M i c else M r c) else M r c

theorem eliminateRow_ok {n : Nat} (M : Fin n → Fin n → K) (i : Fin n) {k : Nat} (hk : i.1 + 1 + k < n) :
    eliminateRow i k (mat M) = .ok (mat (elimRow M i ⟨i.1 + 1 + k, hk⟩)) := by
  unfold eliminateRow
  rw [rd2_mat M hk i.2, Out.ok_bind, rd2_mat M i.2 i.2, Out.ok_bind, wr2_mat M hk i.2, Out.ok_bind]
  rw [sizeColumn_mat (by omega)]
  obtain ⟨s, h1, h2⟩ := loop_inv (n := n - (i.1 + 1)) (body := fun c lu => do
      let x ← rd2 lu (i.1 + 1 + k) (i.1 + 1 + c)
      let l ← rd2 lu (i.1 + 1 + k) i.1
      let u ← rd2 lu i.1 (i.1 + 1 + c)
      wr2 lu (i.1 + 1 + k) (i.1 + 1 + c) (x - l * u))
    (s := mat fun i' j' => if i'.1 = i.1 + 1 + k ∧ j'.1 = i.1 then M ⟨i.1 + 1 + k, hk⟩ ⟨i.1, i.2⟩ / M ⟨i.1, i.2⟩ ⟨i.1, i.2⟩
      else M i' j')
    (fun m s => s = mat fun r c : Fin n => if r.1 = i.1 + 1 + k ∧ c.1 < i.1 + 1 + m then elimRow M i ⟨i.1 + 1 + k, hk⟩ r c
      else M r c) (by
      congr 1
      funext r c
      by_cases hr : r.1 = i.1 + 1 + k
      · obtain rfl : r = ⟨i.1 + 1 + k, hk⟩ := Fin.ext hr
        by_cases hc : c = i
        · subst hc; simp [elimRow]
        · have hc' : c.1 ≠ i.1 := fun h => hc (Fin.ext h)
          by_cases hlt : i < c
          · have : ¬ c.1 < i.1 + 1 := by have : i.1 < c.1 := hlt; omega
            simp [hc', this]
          · simp [hc', elimRow, hc, hlt]
      · simp [hr]) (by
      rintro m s hm rfl
      have hc : i.1 + 1 + m < n := by omega
      refine ⟨_, ?_, rfl⟩
      simp only [rd2_mat _ hk hc, rd2_mat _ hk i.2, rd2_mat _ i.2 hc, wr2_mat _ hk hc, Out.ok_bind, Out.ok.injEq]
      rw [mat_inj]
      funext r c
      by_cases hr : r.1 = i.1 + 1 + k
      · obtain rfl : r = ⟨i.1 + 1 + k, hk⟩ := Fin.ext hr
        by_cases hcm : c.1 = i.1 + 1 + m
        · obtain rfl : c = ⟨i.1 + 1 + m, hc⟩ := Fin.ext hcm
          have h1 : (⟨i.1 + 1 + m, hc⟩ : Fin n) ≠ i := fun h => by have := congrArg Fin.val h; simp at this; omega
          have h2 : i < (⟨i.1 + 1 + m, hc⟩ : Fin n) := by show i.1 < i.1 + 1 + m; omega
          have h3 : i.1 ≠ i.1 + 1 + k := by omega
          simp [elimRow, h1, h2, h3]
          rw [if_pos (by omega)]
        · have : (c.1 < i.1 + 1 + (m + 1)) ↔ (c.1 < i.1 + 1 + m) := by omega
          simp [hcm, this]
      · simp [hr])
  subst h2
  rw [h1, Out.ok.injEq, mat_inj]
  funext r c
  have : c.1 < i.1 + 1 + (n - (i.1 + 1)) := by have := c.2; have := i.2; omega
  by_cases hr : r.1 = i.1 + 1 + k
  · simp [hr, this]
  · have hr' : r ≠ ⟨i.1 + 1 + k, hk⟩ := fun h => hr (congrArg Fin.val h)
    simp [hr, elimRow, hr']

theorem eliminate_ok {n : Nat} (M : Fin n → Fin n → K) (i : Fin n) :
    loop (n - (i.1 + 1)) (eliminateRow i) (mat M) = .ok (mat (elim M i)) := by
  obtain ⟨s, h1, h2⟩ := loop_inv (n := n - (i.1 + 1)) (body := eliminateRow (K := K) i.1) (s := mat M)
    (fun m s => s = mat fun r c : Fin n => if r.1 < i.1 + 1 + m then elim M i r c else M r c) (by
      congr 1
      funext r c
      by_cases hr : r.1 < i.1 + 1
      · have : ¬ i < r := by show ¬ i.1 < r.1; omega
        simp [hr, elim, this]
      · simp [hr]) (by
      rintro m s hm rfl
      have hk : i.1 + 1 + m < n := by omega
      refine ⟨_, eliminateRow_ok _ i hk, ?_⟩
      rw [mat_inj]
      funext r c
      have hi : i.1 < i.1 + 1 + m := by omega
      have hii : ∀ c, elim M i i c = M i c := fun c => by simp [elim]
      unfold elimRow
      by_cases hr : r = ⟨i.1 + 1 + m, hk⟩
      · subst hr
        have hlt : i < (⟨i.1 + 1 + m, hk⟩ : Fin n) := by show i.1 < i.1 + 1 + m; omega
        simp [hi, hii]
        simp [elim, hlt]
      · have hr' : r.1 ≠ i.1 + 1 + m := fun h => hr (Fin.ext h)
        have : (r.1 < i.1 + 1 + (m + 1)) ↔ (r.1 < i.1 + 1 + m) := by omega
        simp [hr, this])
  subst h2
  rw [h1, Out.ok.injEq, mat_inj]
  funext r c
  have : r.1 < i.1 + 1 + (n - (i.1 + 1)) := by have := r.2; have := i.2; omega
  simp [this]

end

theorem swapAt_ok {β : Type} {n : Nat} (x : Fin n → β) (i j : Fin n) :
    swapAt (vec x) i j = .ok (vec fun k => x (Equiv.swap i j k)) := by
  unfold swapAt
  rw [rd_vec x i.2, Out.ok_bind, rd_vec x j.2, Out.ok_bind, wr_vec x i.2, Out.ok_bind, wr_vec _ j.2, Out.ok.injEq, vec_inj]
  funext k
  by_cases hj : k = j
  · subst hj; simp
  · have hj' : k.1 ≠ j.1 := fun h => hj (Fin.ext h)
    by_cases hi : k = i
    · subst hi; simp [hj']
    · have hi' : k.1 ≠ i.1 := fun h => hi (Fin.ext h)
      simp [hi', hj', Equiv.swap_apply_of_ne_of_ne hi hj]

/-! ### The sweeps -/

section

variable {K : Type} [Zero K] [Sub K] [Mul K] [Div K]

/-- The value after subtracting `m` terms from the index `a` on, one after the other. -/
def less {n : Nat} (v : K) (f : Fin n → K) (a : Nat) : Nat → K
  | 0 => v
  | m + 1 => if h : a + m < n then less v f a m - f ⟨a + m, h⟩ else less v f a m

omit [Zero K] [Mul K] [Div K] in
theorem less_congr {n : Nat} {v : K} {f g : Fin n → K} {a m : Nat} (h : ∀ c : Fin n, a ≤ c.1 → c.1 < a + m → f c = g c) :
    less v f a m = less v g a m := by
  induction m with
  | zero => rfl
  | succ m ih =>
    unfold less
    rw [ih fun c h1 h2 => h c h1 (by omega)]
    split
    · rename_i hm
      rw [h ⟨a + m, hm⟩ (by simp) (by simp)]
    · rfl

/-- The loops that subtract the other terms of row `i`. -/
theorem subtract_ok {n : Nat} (M : Fin n → Fin n → K) (x : Fin n → K) (i : Fin n) (a m : Nat) (h : a + m ≤ n)
    (hi : i.1 < a ∨ a + m ≤ i.1) :
    loop m (fun c x => do
      let y ← rd x i.1
      let l ← rd2 (mat M) i.1 (a + c)
      let z ← rd x (a + c)
      wr x i.1 (y - l * z)) (vec x) =
    .ok (vec fun k => if k = i then less (x i) (fun c => M i c * x c) a m else x k) := by
  obtain ⟨s, h1, rfl⟩ := loop_inv (n := m) (s := vec x) (body := fun c x => do
      let y ← rd x i.1
      let l ← rd2 (mat M) i.1 (a + c)
      let z ← rd x (a + c)
      wr x i.1 (y - l * z))
    (fun m s => s = vec fun k => if k = i then less (x i) (fun c => M i c * x c) a m else x k) (by
      congr 1
      funext k
      by_cases hk : k = i
      · subst hk; simp [less]
      · simp [hk]) (by
      rintro c s hc rfl
      have hac : a + c < n := by omega
      have hne : (⟨a + c, hac⟩ : Fin n) ≠ i := by
        rintro rfl
        simp at hi
        omega
      refine ⟨_, ?_, rfl⟩
      simp only [rd_vec _ i.2, rd2_mat M i.2 hac, rd_vec _ hac, Out.ok_bind, wr_vec _ i.2, Out.ok.injEq, vec_inj, hne,
        if_false, if_true]
      funext k
      by_cases hk : k = i
      · subst hk
        simp [less, hac]
      · have hk' : k.1 ≠ i.1 := fun h => hk (Fin.ext h)
        simp [hk, hk'])
  exact h1

/-- The forward sweep. -/
theorem forward_ok {n : Nat} (pivot : Bool) (s : Lu K) (M : Fin n → Fin n → K) (hM : s.lu = mat M) (p : Equiv.Perm (Fin n))
    (hp : pivot = true → s.piv = vec fun r => (p r).1) (hq : pivot = false → p = 1) (b x0 : Fin n → K)
    (ob : Option (List K)) (hb : ob = some (vec b) ∨ (ob = none ∧ b = x0 ∧ ∀ i, i.1 ≤ (p i).1)) :
    ∃ y : Fin n → K, loop n (forwardBody pivot s ob) (vec x0) = .ok (vec y) ∧
      ∀ r, y r = less (b (p r)) (fun c => M r c * y c) 0 r.1 := by
  obtain ⟨_, h1, y, rfl, h2, _⟩ := loop_inv (n := n) (s := vec x0) (body := forwardBody pivot s ob)
    (fun i s => ∃ y : Fin n → K, s = vec y ∧ (∀ r : Fin n, r.1 < i → y r = less (b (p r)) (fun c => M r c * y c) 0 r.1) ∧
      ∀ r : Fin n, i ≤ r.1 → y r = x0 r) ⟨x0, rfl, fun r hr => absurd hr (Nat.not_lt_zero _), fun r _ => rfl⟩ (by
      rintro i _ hi ⟨y, rfl, h2, h3⟩
      have e1 : (if pivot then rd s.piv i else pure i) = Out.ok (p ⟨i, hi⟩).1 := by
        cases pivot with
        | true => rw [if_pos rfl, hp rfl, rd_vec _ hi]
        | false => rw [if_neg (by simp), hq rfl]; rfl
      have e2 : rd (ob.getD (vec y)) (p ⟨i, hi⟩).1 = .ok (b (p ⟨i, hi⟩)) := by
        rcases hb with rfl | ⟨rfl, rfl, hb⟩
        · exact rd_vec b (p ⟨i, hi⟩).2
        · rw [Option.getD_none, rd_vec y (p ⟨i, hi⟩).2]
          congr 1
          exact h3 _ (hb ⟨i, hi⟩)
      unfold forwardBody
      rw [e1, Out.ok_bind, e2, Out.ok_bind, wr_vec y hi, Out.ok_bind, hM]
      have := subtract_ok M (fun k => if k.1 = i then b (p ⟨i, hi⟩) else y k) ⟨i, hi⟩ 0 i (by omega) (by right; simp)
      simp only [Nat.zero_add] at this
      have hps : ∀ (r : Fin n) (v : K) (z z' : Fin n → K), (∀ c : Fin n, c.1 < r.1 → z c = z' c) →
          less v (fun c => M r c * z c) 0 r.1 = less v (fun c => M r c * z' c) 0 r.1 := by
        intro r v z z' hz
        apply less_congr
        intro c _ hc
        rw [hz c (by omega)]
      refine ⟨_, this, _, rfl, ?_, ?_⟩
      · intro r hr
        by_cases hri : r = ⟨i, hi⟩
        · subst hri
          simp only [if_true]
          apply hps ⟨i, hi⟩
          intro c hc
          have hc' : c ≠ ⟨i, hi⟩ := fun h => by rw [h] at hc; exact absurd hc (Nat.lt_irrefl _)
          simp [hc']
        · have hri' : r.1 ≠ i := fun h => hri (Fin.ext h)
          have hlt : r.1 < i := by omega
          simp only [hri, if_false, hri']
          rw [h2 r hlt]
          apply hps r
          intro c hc
          have hc' : c ≠ ⟨i, hi⟩ := fun h => by rw [h] at hc; simp at hc; omega
          have hc'' : c.1 ≠ i := by omega
          simp [hc', hc'']
      · intro r hr
        have hri : r ≠ ⟨i, hi⟩ := fun h => by rw [h] at hr; simp at hr
        have hri' : r.1 ≠ i := by omega
        simp only [hri, if_false, hri']
        exact h3 r (by omega))
  exact ⟨y, h1, fun r => h2 r r.2⟩

/-- The backward sweep. -/
theorem backward_ok {n : Nat} (s : Lu K) (M : Fin n → Fin n → K) (hM : s.lu = mat M) (y : Fin n → K) :
    ∃ x : Fin n → K, loop n (fun k x => backwardBody s (n - 1 - k) x) (vec y) = .ok (vec x) ∧
      ∀ r, x r = (less (y r) (fun c => M r c * x c) (r.1 + 1) (n - (r.1 + 1))) / M r r := by
  obtain ⟨_, h1, x, rfl, h2, _⟩ := loop_inv (n := n) (s := vec y) (body := fun k x => backwardBody s (n - 1 - k) x)
    (fun k s => ∃ x : Fin n → K, s = vec x ∧
      (∀ r : Fin n, n - k ≤ r.1 → x r = (less (y r) (fun c => M r c * x c) (r.1 + 1) (n - (r.1 + 1))) / M r r) ∧
      ∀ r : Fin n, r.1 < n - k → x r = y r) ⟨y, rfl, fun r hr => absurd r.2 (by omega), fun r _ => rfl⟩ (by
      rintro k _ hk ⟨x, rfl, h2, h3⟩
      have hi : n - 1 - k < n := by omega
      generalize hI : (⟨n - 1 - k, hi⟩ : Fin n) = I
      have hI' : I.1 = n - 1 - k := by rw [← hI]
      unfold backwardBody
      rw [hM, sizeColumn_mat (by omega), ← hI']
      have := subtract_ok M x I (I.1 + 1) (n - (I.1 + 1)) (by omega) (by left; omega)
      rw [this, Out.ok_bind, rd_vec _ I.2, Out.ok_bind, rd2_mat M I.2 I.2, Out.ok_bind, wr_vec _ I.2]
      have hps : ∀ (r : Fin n) (v : K) (z z' : Fin n → K), (∀ c : Fin n, r.1 < c.1 → z c = z' c) →
          less v (fun c => M r c * z c) (r.1 + 1) (n - (r.1 + 1)) = less v (fun c => M r c * z' c) (r.1 + 1) (n - (r.1 + 1)) := by
        intro r v z z' hz
        apply less_congr
        intro c hc _
        rw [hz c (by omega)]
      refine ⟨_, rfl, _, rfl, ?_, ?_⟩
      · intro r hr
        by_cases hrI : r = I
        · subst hrI
          simp only [if_true]
          rw [h3 r (by omega)]
          congr 1
          apply hps r
          intro c hc
          have hc' : c ≠ r := fun h => by rw [h] at hc; exact absurd hc (Nat.lt_irrefl _)
          have hc'' : c.1 ≠ r.1 := by omega
          simp [hc', hc'']
        · have hrI' : r.1 ≠ I.1 := fun h => hrI (Fin.ext h)
          simp only [hrI, if_false, hrI']
          rw [h2 r (by omega)]
          congr 1
          apply hps r
          intro c hc
          have hc'' : c.1 ≠ I.1 := by omega
          have hc' : c ≠ I := fun h => hc'' (congrArg Fin.val h)
          simp [hc', hc'']
      · intro r hr
        have hrI' : r.1 ≠ I.1 := by omega
        have hrI : r ≠ I := fun h => hrI' (congrArg Fin.val h)
        simp only [hrI, if_false, hrI']
        exact h3 r (by omega))
  exact ⟨x, h1, fun r => h2 r (by omega)⟩

end

variable {K : Type} [Field K] [LinearOrder K]

/-! ### The search for the pivot -/

theorem scalars_lt (a b : K) : ((scalars K).lt ((scalars K).abs a) b = true) ↔ |a| < b := by
  simp [scalars, Arith.exact]

variable [IsStrictOrderedRing K]

theorem eps_le_rel : (scalars K).le (scalars K).eps (defaultRelative K) = true := by
  simp only [scalars, Arith.exact, defaultRelative, decide_eq_true_eq]
  have : (0 : K) < 1 / 2 ^ 52 := by positivity
  linarith

theorem rel_le : defaultRelative K ≤ 1 / 3 := by
  unfold defaultRelative
  norm_num

theorem rel_le_one : (scalars K).le (defaultRelative K) (scalars K).one = true := by
  simp only [scalars, Arith.exact, decide_eq_true_eq]
  have := rel_le (K := K)
  linarith

theorem rel_pos : 0 < defaultRelative K := by
  unfold defaultRelative
  positivity

/-- What is known about an element that does not become the pivot: it is at most slightly larger than one that did. -/
def Near (e m : K) : Prop := ∃ m', 0 ≤ m' ∧ m' ≤ m ∧
  (e ≤ m' ∨ e - m' < max (defaultAbsolute K) (defaultRelative K * (e + m')))

theorem near_of_not_greater {e m : K} (he : 0 ≤ e) (hm : 0 ≤ m)
    (h : (scalars K).nearlyGreater e m (defaultRelative K) (defaultAbsolute K) = .ok false) : Near e m := by
  refine ⟨m, hm, le_refl m, ?_⟩
  unfold Arith.nearlyGreater Arith.nearlyLessEqual at h
  by_cases hlt : e < m
  · exact .inl hlt.le
  · right
    rw [show (scalars K).lt e m = false by simpa [scalars, Arith.exact] using hlt] at h
    simp only [Bool.false_eq_true, if_false] at h
    rw [show (scalars K) = Arith.exact K (1 / 2 ^ 52) ((2 - 1 / 2 ^ 52) * 2 ^ 1023) from rfl,
      Props.c79_exact _ _ _ _ _ _ (by simpa [scalars, Arith.exact] using eps_le_rel (K := K))
        (by simpa [scalars, Arith.exact] using rel_le_one (K := K))] at h
    simp only [Out.ok_bind, Out.pure_eq, Out.ok.injEq, Bool.not_eq_false', decide_eq_true_eq] at h
    rcases h with rfl | h
    · rw [sub_self]
      exact lt_max_of_lt_left (by unfold defaultAbsolute; positivity)
    · refine lt_of_le_of_lt (le_abs_self _) (lt_of_lt_of_le h (max_le_max le_rfl ?_))
      rw [abs_of_nonneg he, abs_of_nonneg hm]
      exact mul_le_mul_of_nonneg_left (min_le_left _ _) rel_pos.le

theorem nearlyGreater_ok (e m : K) :
    ∃ g, (scalars K).nearlyGreater e m (defaultRelative K) (defaultAbsolute K) = .ok g ∧ (g = true → m < e) := by
  obtain ⟨_, l, e', g, _, _, h3, _, _, _, _, _, _, _, h4⟩ := Props.c42_exact (1 / 2 ^ 52) ((2 - 1 / 2 ^ 52) * 2 ^ 1023) e m
    (defaultRelative K) (defaultAbsolute K) (by simpa [scalars, Arith.exact] using eps_le_rel (K := K))
        (by simpa [scalars, Arith.exact] using rel_le_one (K := K))
  exact ⟨g, h3, fun hg => by simpa [Arith.exact] using h4 hg⟩

theorem search_ok {n : Nat} (M : Fin n → Fin n → K) (i : Fin n) :
    ∃ mx, ∃ m : Fin n, loop (n - i.1) (searchBody (scalars K) (mat M) i) (0, i.1) = .ok (mx, m.1) ∧ i ≤ m ∧ 0 ≤ mx ∧
      ((mx = |M m i|) ∨ (mx = 0 ∧ m = i)) ∧ ∀ r, i ≤ r → Near |M r i| mx := by
  obtain ⟨s, h1, mx, m, rfl, h2, h3, h4, h5⟩ := loop_inv (n := n - i.1) (body := searchBody (scalars K) (mat M) i.1) (s := ((0 : K), i.1))
    (fun k s => ∃ (mx : K) (m : Fin n), s = (mx, m.1) ∧ i ≤ m ∧ 0 ≤ mx ∧ ((mx = |M m i|) ∨ (mx = 0 ∧ m = i)) ∧
      ∀ r : Fin n, i ≤ r → r.1 < i.1 + k → Near |M r i| mx)
    ⟨0, i, rfl, le_refl i, le_refl 0, .inr ⟨rfl, rfl⟩, fun r hr hlt => by have : i.1 ≤ r.1 := hr; omega⟩ (by
      rintro k s hk ⟨mx, m, rfl, h2, h3, h4, h5⟩
      have hr : i.1 + k < n := by omega
      obtain ⟨g, hg, hgt⟩ := nearlyGreater_ok |M ⟨i.1 + k, hr⟩ i| mx
      simp only [searchBody, rd2_mat M hr i.2, Out.ok_bind]
      rw [show (scalars K).rel = defaultRelative K from rfl, show (scalars K).tol = defaultAbsolute K from rfl,
        show ∀ a, (scalars K).abs a = |a| from fun _ => rfl, show M ⟨i.1 + k, hr⟩ ⟨i.1, i.2⟩ = M ⟨i.1 + k, hr⟩ i from rfl, hg]
      simp only [Out.ok_bind, Out.pure_eq]
      cases g with
      | true =>
        refine ⟨_, rfl, |M ⟨i.1 + k, hr⟩ i|, ⟨i.1 + k, hr⟩, rfl, by show i.1 ≤ i.1 + k; omega, abs_nonneg _, .inl rfl, ?_⟩
        intro r hir hrk
        by_cases hrk' : r.1 < i.1 + k
        · obtain ⟨m', a1, a2, a3⟩ := h5 r hir hrk'
          exact ⟨m', a1, le_trans a2 (hgt rfl).le, a3⟩
        · obtain rfl : r = ⟨i.1 + k, hr⟩ := Fin.ext (by show r.1 = i.1 + k; omega)
          exact ⟨_, abs_nonneg _, le_refl _, .inl (le_refl _)⟩
      | false =>
        refine ⟨_, rfl, mx, m, rfl, h2, h3, h4, ?_⟩
        intro r hir hrk
        by_cases hrk' : r.1 < i.1 + k
        · exact h5 r hir hrk'
        · obtain rfl : r = ⟨i.1 + k, hr⟩ := Fin.ext (by show r.1 = i.1 + k; omega)
          exact near_of_not_greater (abs_nonneg _) h3 hg)
  exact ⟨mx, m, h1, h2, h3, h4, fun r hr => h5 r hr (by have := r.2; have := i.2; omega)⟩

/-- An element near to one below the tolerance. -/
theorem near_bound {e m tol : K} (he : 0 ≤ e) (h : Near e m) (hm : m < tol) : e < 2 * (tol + defaultAbsolute K) := by
  obtain ⟨m', h0, h1, h2⟩ := h
  have hτ : 0 < defaultAbsolute K := by unfold defaultAbsolute; positivity
  rcases h2 with h2 | h2
  · linarith
  · rcases lt_max_iff.mp h2 with h2 | h2
    · linarith
    · have h3 : defaultRelative K * (e + m') ≤ 1 / 3 * (e + m') := mul_le_mul_of_nonneg_right rel_le (by linarith)
      linarith

/-- The pivot step swaps rows `i` and `m`. -/
theorem pivotStep_ok {n : Nat} (M : Fin n → Fin n → K) (p : Fin n → Nat) (i : Fin n) :
    ∃ m : Fin n, i ≤ m ∧ pivotStep (scalars K) i (mat M, vec p) =
        .ok (mat fun r => M (Equiv.swap i m r), vec fun r => p (Equiv.swap i m r)) ∧
      ∃ mx, 0 ≤ mx ∧ (mx = |M m i| ∨ mx = 0) ∧ ∀ r, i ≤ r → Near |M r i| mx := by
  obtain ⟨mx, m, h1, h2, h3, h4, h5⟩ := search_ok M i
  refine ⟨m, h2, ?_, mx, h3, h4.imp_right And.left, h5⟩
  unfold pivotStep
  simp only
  rw [sizeColumn_mat (by omega), h1, Out.ok_bind]
  simp only
  by_cases hm : m = i
  · subst hm
    simp
  · have hm' : (m.1 != i.1) = true := by simpa using fun h => hm (Fin.ext h)
    rw [if_pos hm', swapAt_ok, Out.ok_bind, mat_eq_vec, swapAt_ok]
    rfl

/-! ### The product -/

omit [LinearOrder K] [IsStrictOrderedRing K]

/-- The lower factor after `i` steps. -/
def lower {n : Nat} (M : Fin n → Fin n → K) (i : Nat) (r k : Fin n) : K :=
  if r = k then 1 else if k.1 < i ∧ k < r then M r k else 0

/-- The upper factor and the rest after `i` steps. -/
def upper {n : Nat} (M : Fin n → Fin n → K) (i : Nat) (k c : Fin n) : K := if c.1 < min k.1 i then 0 else M k c

/-- The factors give the matrix with permuted rows. -/
def Factors {n : Nat} (A : Fin n → Fin n → K) (p : Equiv.Perm (Fin n)) (M : Fin n → Fin n → K) (i : Nat) : Prop :=
  ∀ r c, A (p r) c = ∑ k, lower M i r k * upper M i k c

theorem factors_zero {n : Nat} (A : Fin n → Fin n → K) : Factors A 1 A 0 := by
  intro r c
  simp [lower, upper]

theorem factors_swap {n : Nat} {A : Fin n → Fin n → K} {p : Equiv.Perm (Fin n)} {M : Fin n → Fin n → K} {i m : Fin n}
    (h : Factors A p M i) (hm : i ≤ m) :
    Factors A ((Equiv.swap i m).trans p) (fun r => M (Equiv.swap i m r)) i := by
  intro r c
  have hfix : ∀ k : Fin n, k.1 < i.1 → Equiv.swap i m k = k := by
    intro k hk
    apply Equiv.swap_apply_of_ne_of_ne
    · rintro rfl; omega
    · rintro rfl; have : i.1 ≤ k.1 := hm; omega
  have hge : ∀ k : Fin n, i.1 ≤ k.1 → i.1 ≤ (Equiv.swap i m k).1 := by
    intro k hk
    by_contra hlt
    have := hfix (Equiv.swap i m k) (by omega)
    rw [Equiv.swap_apply_self] at this
    rw [this] at hk
    omega
  rw [Equiv.trans_apply, h]
  symm
  refine Fintype.sum_equiv (Equiv.swap i m) _ _ fun k => ?_
  congr 1
  · unfold lower
    by_cases hrk : r = k
    · subst hrk; simp
    · have hrk' : Equiv.swap i m r ≠ Equiv.swap i m k := fun h => hrk (Equiv.injective _ h)
      rw [if_neg hrk, if_neg hrk']
      by_cases hk : k.1 < i.1
      · rw [hfix k hk]
        have : k < r ↔ k < Equiv.swap i m r := by
          by_cases hr : r.1 < i.1
          · rw [hfix r hr]
          · have h1 := hge r (by omega)
            constructor
            · intro _; show k.1 < (Equiv.swap i m r).1; omega
            · intro _; show k.1 < r.1; omega
        simp [hk, this]
      · have h1 := hge k (by omega)
        have h2 : ¬ (Equiv.swap i m k).1 < i.1 := by omega
        simp [hk, h2]
  · unfold upper
    have : min (Equiv.swap i m k).1 i.1 = min k.1 i.1 := by
      by_cases hk : k.1 < i.1
      · rw [hfix k hk]
      · have h1 := hge k (by omega)
        omega
    rw [this]

theorem factors_elim {n : Nat} {A : Fin n → Fin n → K} {p : Equiv.Perm (Fin n)} {M : Fin n → Fin n → K} {i : Fin n}
    (h : Factors A p M i) (hd : M i i ≠ 0) : Factors A p (elim M i) (i.1 + 1) := by
  intro r c
  rw [h r c]
  -- the multipliers
  have hup : ∀ k c, upper M i.1 k c =
      upper (elim M i) (i.1 + 1) k c + (if i < k then M k i / M i i * upper (elim M i) (i.1 + 1) i c else 0) := by
    intro k c
    by_cases hk : i < k
    · have hk' : i.1 < k.1 := hk
      rw [if_pos hk]
      unfold upper
      rw [show min k.1 i.1 = i.1 by omega, show min k.1 (i.1 + 1) = i.1 + 1 by omega, show min i.1 (i.1 + 1) = i.1 by omega]
      by_cases hc : c.1 < i.1
      · simp [hc, show c.1 < i.1 + 1 by omega]
      · by_cases hci : c = i
        · subst hci
          simp [elim]
          field_simp
        · have hc' : i < c := by
            show i.1 < c.1
            have : c.1 ≠ i.1 := fun h => hci (Fin.ext h)
            omega
          have : ¬ c.1 < i.1 + 1 := by have : i.1 < c.1 := hc'; omega
          simp [hc, this, elim, hk, hci, hc']
    · have hk' : k.1 ≤ i.1 := by
        have : ¬ i.1 < k.1 := hk
        omega
      rw [if_neg hk, add_zero]
      unfold upper
      rw [show min k.1 i.1 = k.1 by omega, show min k.1 (i.1 + 1) = k.1 by omega]
      simp [elim, hk]
  have hlo : ∀ r k, lower (elim M i) (i.1 + 1) r k =
      lower M i.1 r k + (if k = i ∧ i < r then M r i / M i i else 0) := by
    intro r k
    unfold lower
    by_cases hrk : r = k
    · subst hrk
      by_cases hri : r = i
      · subst hri; simp
      · simp [hri]
    · rw [if_neg hrk, if_neg hrk]
      by_cases hki : k = i
      · subst hki
        by_cases hr : k < r
        · simp [hr, elim]
        · simp [hr]
      · have hki' : k.1 ≠ i.1 := fun h => hki (Fin.ext h)
        have h1 : k.1 < i.1 + 1 ↔ k.1 < i.1 := by omega
        simp only [hki, false_and, if_false, add_zero, h1]
        split
        · rename_i hk
          have h2 : ¬ i < k := by
            have := hk.1
            show ¬ i.1 < k.1
            omega
          simp [elim, hki, h2]
        · rfl
  simp only [hup, hlo, mul_add, add_mul, Finset.sum_add_distrib]
  congr 1
  have e1 : ∀ k, lower M i.1 r k * (if i < k then M k i / M i i * upper (elim M i) (i.1 + 1) i c else 0) =
      if k = r then (if i < r then M r i / M i i * upper (elim M i) (i.1 + 1) i c else 0) else 0 := by
    intro k
    by_cases hk : i < k
    · have hk' : ¬ k.1 < i.1 := by have : i.1 < k.1 := hk; omega
      by_cases hrk : k = r
      · subst hrk
        simp [lower, hk]
      · have : r ≠ k := fun h => hrk h.symm
        simp [lower, hk', hrk, this]
    · by_cases hrk : k = r
      · subst hrk; simp [hk]
      · simp [hk, hrk]
  have e2 : ∀ k, (if k = i ∧ i < r then M r i / M i i else 0) * upper (elim M i) (i.1 + 1) k c =
      if k = i then (if i < r then M r i / M i i * upper (elim M i) (i.1 + 1) i c else 0) else 0 := by
    intro k
    by_cases hk : k = i
    · subst hk
      by_cases hr : k < r <;> simp [hr]
    · simp [hk]
  simp only [e1, e2, Finset.sum_ite_eq', Finset.mem_univ, if_true]

theorem elim_diag {n : Nat} {M : Fin n → Fin n → K} {i k : Fin n} (h : k.1 ≤ i.1) : elim M i k k = M k k := by
  unfold elim
  exact if_neg (show ¬ i < k from Nat.not_lt.mpr h)

/-! ### Factorisation -/

variable [LinearOrder K] [IsStrictOrderedRing K]

/-- State of the factorisation before step `i`. -/
structure State {n : Nat} (pivot : Bool) (tol : K) (A : Fin n → Fin n → K) (piv : List Nat) (p : Equiv.Perm (Fin n))
    (M : Fin n → Fin n → K) (i : Nat) (st : List Nat) : Prop where
  factors : Factors A p M i
  diag : ∀ k : Fin n, k.1 < i → tol ≤ |M k k|
  pivots : pivot = true → st = vec fun r => (p r).1
  none : pivot = false → st = piv ∧ p = 1

/-- The matrix was rejected in step `i`. -/
structure Rejected {n : Nat} (pivot : Bool) (tol : K) (A : Fin n → Fin n → K) (p : Equiv.Perm (Fin n))
    (M : Fin n → Fin n → K) (i : Fin n) : Prop where
  factors : Factors A p M i
  small : |M i i| < tol
  column : pivot = true → ∀ r, i ≤ r → |M r i| < 2 * (tol + defaultAbsolute K)
  none : pivot = false → p = 1

theorem body_ok {n : Nat} {pivot : Bool} {tol : K} (htol : 0 < tol) {A : Fin n → Fin n → K} {piv : List Nat}
    {p : Equiv.Perm (Fin n)} {M : Fin n → Fin n → K} {i : Nat} {st : List Nat} (hi : i < n)
    (h : State pivot tol A piv p M i st) :
    ∃ (p' : Equiv.Perm (Fin n)) (M' : Fin n → Fin n → K) (st' : List Nat) (ok : Bool),
      factoriseBody (scalars K) pivot tol i (mat M, st, true) = .ok (mat M', st', ok) ∧
      (ok = true → State pivot tol A piv p' M' (i + 1) st') ∧ (ok = false → Rejected pivot tol A p' M' ⟨i, hi⟩) := by
  -- the pivot step
  obtain ⟨p1, M1, st1, e1, h1, h2⟩ : ∃ (p1 : Equiv.Perm (Fin n)) (M1 : Fin n → Fin n → K) (st1 : List Nat),
      (if pivot then pivotStep (scalars K) i (mat M, st) else pure (mat M, st)) = .ok (mat M1, st1) ∧
      State pivot tol A piv p1 M1 i st1 ∧
      (pivot = true → |M1 ⟨i, hi⟩ ⟨i, hi⟩| < tol → ∀ r, (⟨i, hi⟩ : Fin n) ≤ r →
        |M1 r ⟨i, hi⟩| < 2 * (tol + defaultAbsolute K)) := by
    cases pivot with
    | false => exact ⟨p, M, st, rfl, h, by simp⟩
    | true =>
      obtain ⟨m, hm, hs, mx, hmx0, hmx, hnear⟩ := pivotStep_ok M (fun r => (p r).1) ⟨i, hi⟩
      rw [h.pivots rfl]
      refine ⟨_, _, _, hs, ⟨factors_swap h.factors hm, ?_, fun _ => rfl, by simp⟩, ?_⟩
      · intro k hk
        have : Equiv.swap ⟨i, hi⟩ m k = k := by
          apply Equiv.swap_apply_of_ne_of_ne
          · rintro rfl; exact absurd hk (by simp)
          · rintro rfl
            have : i ≤ k.1 := hm
            omega
        simp only [this]
        exact h.diag k hk
      · intro _ hsmall r hr
        simp only [Equiv.swap_apply_left] at hsmall
        have hlt : mx < tol := by
          rcases hmx with h | h
          · rw [h]; exact hsmall
          · rw [h]; exact htol
        have hge : (⟨i, hi⟩ : Fin n) ≤ Equiv.swap ⟨i, hi⟩ m r := by
          by_cases h1 : r = ⟨i, hi⟩
          · rw [h1, Equiv.swap_apply_left]; exact hm
          · by_cases h2 : r = m
            · rw [h2, Equiv.swap_apply_right]
            · rw [Equiv.swap_apply_of_ne_of_ne h1 h2]; exact hr
        exact near_bound (abs_nonneg _) (hnear _ hge) hlt
  by_cases hsmall : |M1 ⟨i, hi⟩ ⟨i, hi⟩| < tol
  · refine ⟨p1, M1, st1, false, ?_, by simp, fun _ => ⟨h1.factors, hsmall, fun hp => h2 hp hsmall, fun hp => (h1.none hp).2⟩⟩
    unfold factoriseBody
    simp only [if_true, e1, Out.ok_bind, rd2_mat M1 hi hi, scalars_lt, hsmall]
    rfl
  · refine ⟨p1, elim M1 ⟨i, hi⟩, st1, true, ?_, fun _ => ?_, by simp⟩
    · unfold factoriseBody
      simp only [if_true, e1, Out.ok_bind, rd2_mat M1 hi hi, scalars_lt, hsmall, if_false, mat_length]
      have := eliminate_ok M1 ⟨i, hi⟩
      simp only at this
      rw [this]
      rfl
    · have hne : M1 ⟨i, hi⟩ ⟨i, hi⟩ ≠ 0 := by
        intro h0
        rw [h0, abs_zero] at hsmall
        exact hsmall htol
      refine ⟨factors_elim h1.factors hne, ?_, h1.pivots, h1.none⟩
      intro k hk
      rw [elim_diag (by show k.1 ≤ i; omega)]
      by_cases hki : k.1 < i
      · exact h1.diag k hki
      · obtain rfl : k = ⟨i, hi⟩ := Fin.ext (by show k.1 = i; omega)
        exact not_lt.mp hsmall

theorem vec_range (n : Nat) : List.range n = vec fun r : Fin n => r.1 := by
  apply List.ext_getElem
  · simp [vec]
  · intro k h1 h2; simp [vec]

/-- The factorisation returns, with factors or rejecting the matrix. -/
theorem factorise_ok (pivot : Bool) (s : Lu K) (htol : 0 < s.tol) {n : Nat} (A : Fin n → Fin n → K) :
    ∃ (p : Equiv.Perm (Fin n)) (M : Fin n → Fin n → K) (st : List Nat) (ok : Bool),
      factorise (scalars K) pivot s (mat A) = .ok ({ s with factorised := ok, lu := mat M, piv := st }, ok) ∧
      (ok = true → State pivot s.tol A s.piv p M n st) ∧ (ok = false → ∃ i, Rejected pivot s.tol A p M i) := by
  obtain ⟨_, h1, p, M, st, ok, rfl, h2, h3⟩ := loop_inv (n := n) (body := factoriseBody (scalars K) pivot s.tol)
    (s := (mat A, (if pivot then List.range (sizeColumn (mat A)) else s.piv), true))
    (fun i t => ∃ (p : Equiv.Perm (Fin n)) (M : Fin n → Fin n → K) (st : List Nat) (ok : Bool), t = (mat M, st, ok) ∧
      (ok = true → State pivot s.tol A s.piv p M i st) ∧ (ok = false → ∃ i, Rejected pivot s.tol A p M i))
    ⟨1, A, _, true, rfl, fun _ => ⟨factors_zero A, fun k hk => absurd hk (Nat.not_lt_zero _), fun hp => by
      rw [if_pos hp, sizeColumn_mat (by omega), vec_range]; rfl, fun hp => by rw [if_neg (by simp [hp])]; exact ⟨rfl, rfl⟩⟩,
      by simp⟩ (by
      rintro i t hi ⟨p, M, st, ok, rfl, h2, h3⟩
      cases ok with
      | false => exact ⟨_, rfl, p, M, st, false, rfl, by simp, h3⟩
      | true =>
        obtain ⟨p', M', st', ok', e, h4, h5⟩ := body_ok htol hi (h2 rfl)
        exact ⟨_, e, p', M', st', ok', rfl, h4, fun h => ⟨_, h5 h⟩⟩)
  refine ⟨p, M, st, ok, ?_, h2, h3⟩
  unfold factorise
  rw [mat_length, h1]
  rfl

/-! ### The solution -/

omit [LinearOrder K] [IsStrictOrderedRing K]

/-- The sum of `f` over the `m` indices from `a` on. -/
def psum {n : Nat} (f : Fin n → K) (a m : Nat) : K := ∑ c : Fin n, if a ≤ c.1 ∧ c.1 < a + m then f c else 0

theorem psum_zero {n : Nat} (f : Fin n → K) (a : Nat) : psum f a 0 = 0 := by
  unfold psum
  apply Finset.sum_eq_zero
  intro c _
  rw [if_neg (by omega)]

theorem psum_succ {n : Nat} (f : Fin n → K) (a m : Nat) (h : a + m < n) : psum f a (m + 1) = psum f a m + f ⟨a + m, h⟩ := by
  unfold psum
  have : ∀ c : Fin n, (if a ≤ c.1 ∧ c.1 < a + (m + 1) then f c else 0) =
      (if a ≤ c.1 ∧ c.1 < a + m then f c else 0) + (if c = ⟨a + m, h⟩ then f ⟨a + m, h⟩ else 0) := by
    intro c
    by_cases hc : c = ⟨a + m, h⟩
    · subst hc
      simp
    · have hc' : c.1 ≠ a + m := fun h' => hc (Fin.ext h')
      rw [if_neg hc, add_zero]
      congr 1
      exact propext ⟨fun h => ⟨h.1, by omega⟩, fun h => ⟨h.1, by omega⟩⟩
  simp only [this, Finset.sum_add_distrib, Finset.sum_ite_eq', Finset.mem_univ, if_true]

theorem less_eq {n : Nat} (v : K) (f : Fin n → K) (a m : Nat) (h : a + m ≤ n) : less v f a m = v - psum f a m := by
  induction m with
  | zero => simp [less, psum_zero]
  | succ m ih =>
    have hm : a + m < n := by omega
    unfold less
    rw [dif_pos hm, ih (by omega), psum_succ _ _ _ hm]
    ring

/-- The sweeps solve the system with the factors. -/
theorem sweeps_solve {n : Nat} {A : Fin n → Fin n → K} {p : Equiv.Perm (Fin n)} {M : Fin n → Fin n → K}
    (hf : Factors A p M n) (hd : ∀ k, M k k ≠ 0) {b y x : Fin n → K}
    (hy : ∀ r, y r = less (b (p r)) (fun c => M r c * y c) 0 r.1)
    (hx : ∀ r, x r = less (y r) (fun c => M r c * x c) (r.1 + 1) (n - (r.1 + 1)) / M r r) :
    ∀ r, ∑ c, A r c * x c = b r := by
  have hy : ∀ r, y r = b (p r) - psum (fun c => M r c * y c) 0 r.1 := fun r => by
    rw [← less_eq _ _ _ _ (by have := r.2; omega)]
    exact hy r
  have hx : ∀ r, x r = (y r - psum (fun c => M r c * x c) (r.1 + 1) (n - (r.1 + 1))) / M r r := fun r => by
    rw [← less_eq _ _ _ _ (by have := r.2; omega)]
    exact hx r
  have h1 : ∀ r, ∑ k, lower M n r k * y k = b (p r) := by
    intro r
    have : ∀ k : Fin n, lower M n r k * y k = (if k = r then y r else 0) + (if 0 ≤ k.1 ∧ k.1 < 0 + r.1 then M r k * y k else 0) := by
      intro k
      unfold lower
      by_cases hk : k = r
      · subst hk; simp
      · have hk' : r ≠ k := fun h => hk h.symm
        have hkn := k.2
        have e : (k < r) ↔ (k.1 < r.1) := Iff.rfl
        by_cases hkr : k.1 < r.1
        · simp [hk, hk', hkn, e, hkr]
        · simp [hk, hk', hkn, e, hkr]
    simp only [this, Finset.sum_add_distrib, Finset.sum_ite_eq', Finset.mem_univ, if_true]
    have e := hy r
    unfold psum at e
    rw [e]
    ring
  have h2 : ∀ k, ∑ c, upper M n k c * x c = y k := by
    intro k
    have : ∀ c : Fin n, upper M n k c * x c = (if c = k then M k k * x k else 0) +
        (if k.1 + 1 ≤ c.1 ∧ c.1 < k.1 + 1 + (n - (k.1 + 1)) then M k c * x c else 0) := by
      intro c
      unfold upper
      have hkn := k.2
      have hcn := c.2
      rw [show min k.1 n = k.1 by omega]
      by_cases hc : c = k
      · subst hc; simp
      · have hc' : c.1 ≠ k.1 := fun h => hc (Fin.ext h)
        by_cases hlt : c.1 < k.1
        · rw [if_pos hlt, if_neg hc, if_neg (by omega)]; simp
        · rw [if_neg hlt, if_neg hc, if_pos (by omega)]; simp
    simp only [this, Finset.sum_add_distrib, Finset.sum_ite_eq', Finset.mem_univ, if_true]
    have e := hx k
    rw [eq_div_iff (hd k)] at e
    unfold psum at e
    rw [mul_comm (M k k), e]
    ring
  have h3 : ∀ r, ∑ c, A (p r) c * x c = b (p r) := by
    intro r
    rw [← h1 r]
    simp only [hf r, Finset.sum_mul]
    rw [Finset.sum_comm]
    apply Finset.sum_congr rfl
    intro k _
    rw [← h2 k, Finset.mul_sum]
    apply Finset.sum_congr rfl
    intro c _
    ring
  intro r
  have := h3 (p.symm r)
  simpa using this

/-! ### Rejected matrices -/

/-- A vector that the first `i` rows of the upper factor take to zero. -/
theorem exists_kernel {n : Nat} (M : Fin n → Fin n → K) (i : Fin n) :
    ∃ v : Fin n → K, v ≠ 0 ∧ (∀ c, i < c → v c = 0) ∧ ∀ k, k < i → ∑ c, upper M i k c * v c = 0 := by
  let T : (Fin n → K) →ₗ[K] (Fin n → K) :=
    { toFun := fun v r => if r < i then ∑ c, upper M i r c * v c else if r = i then 0 else v r
      map_add' := by
        intro v w
        funext r
        by_cases h1 : r < i
        · simp [h1, mul_add, Finset.sum_add_distrib]
        · by_cases h2 : r = i <;> simp [h1, h2]
      map_smul' := by
        intro a v
        funext r
        by_cases h1 : r < i
        · simp only [h1, if_true, RingHom.id_apply, Pi.smul_apply, smul_eq_mul, Finset.mul_sum]
          apply Finset.sum_congr rfl
          intro c _
          ring
        · by_cases h2 : r = i <;> simp [h1, h2] }
  have hT : ∀ v r, T v r = if r < i then ∑ c, upper M i r c * v c else if r = i then 0 else v r := fun v r => rfl
  have hns : ¬ Function.Surjective T := by
    intro hs
    obtain ⟨v, hv⟩ := hs (fun _ => 1)
    have := congrFun hv i
    rw [hT] at this
    simp at this
  have hni : ¬ Function.Injective T := fun hi => hns (LinearMap.injective_iff_surjective.mp hi)
  rw [← LinearMap.ker_eq_bot] at hni
  obtain ⟨v, hv, hv0⟩ := (Submodule.ne_bot_iff _).mp hni
  rw [LinearMap.mem_ker] at hv
  refine ⟨v, hv0, ?_, ?_⟩
  · intro c hc
    have := congrFun hv c
    rw [hT, if_neg (not_lt.mpr hc.le), if_neg hc.ne'] at this
    exact this
  · intro k hk
    have := congrFun hv k
    rw [hT, if_pos hk] at this
    exact this

/-- What the rows of the matrix do to such a vector. -/
theorem rows_kernel {n : Nat} {A : Fin n → Fin n → K} {p : Equiv.Perm (Fin n)} {M : Fin n → Fin n → K} {i : Fin n}
    (hf : Factors A p M i) {v : Fin n → K} (h1 : ∀ c, i < c → v c = 0) (h2 : ∀ k, k < i → ∑ c, upper M i k c * v c = 0)
    (r : Fin n) : ∑ c, A (p r) c * v c = if i ≤ r then M r i * v i else 0 := by
  have h3 : ∀ k, i ≤ k → ∑ c, upper M i k c * v c = M k i * v i := by
    intro k hk
    rw [Finset.sum_eq_single i]
    · unfold upper
      rw [if_neg (by have : i.1 ≤ k.1 := hk; omega)]
    · intro c _ hc
      rcases lt_or_gt_of_ne hc with h | h
      · unfold upper
        rw [if_pos (by have : i.1 ≤ k.1 := hk; have : c.1 < i.1 := h; omega), zero_mul]
      · rw [h1 c h, mul_zero]
    · intro h; exact absurd (Finset.mem_univ i) h
  have h4 : ∑ c, A (p r) c * v c = ∑ k, lower M i r k * ∑ c, upper M i k c * v c := by
    simp only [hf r, Finset.sum_mul]
    rw [Finset.sum_comm]
    apply Finset.sum_congr rfl
    intro k _
    rw [Finset.mul_sum]
    apply Finset.sum_congr rfl
    intro c _
    ring
  rw [h4]
  have h5 : ∀ k, lower M i r k * ∑ c, upper M i k c * v c = if k = r then (if i ≤ r then M r i * v i else 0) else 0 := by
    intro k
    by_cases hk : i ≤ k
    · rw [h3 k hk]
      unfold lower
      by_cases hkr : k = r
      · subst hkr; simp [hk]
      · have hkr' : r ≠ k := fun h => hkr h.symm
        have : ¬ k.1 < i.1 := by have : i.1 ≤ k.1 := hk; omega
        simp [hkr, hkr', this]
    · rw [h2 k (not_le.mp hk), mul_zero]
      by_cases hkr : k = r
      · subst hkr; simp [hk]
      · simp [hkr]
  simp only [h5, Finset.sum_ite_eq', Finset.mem_univ, if_true]

end Disa.Lu
