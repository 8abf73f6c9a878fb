import Verif.Props.Exchange
import Verif.Props.Limits
import Verif.Props.Lu

/-!
# Parts that are solved on their own with the values around them held
-/

namespace Disa.Props

open Disa Spec Graph Disa.Sparse Disa.Dense Iterative Lu

section parts

variable {K N : Type} [Field K] [LinearOrder K] [IsStrictOrderedRing K] {F : Scalars K N}

/-- The parts of a system with at least one level around them: a subgraph for each, and a matrix which has the rows of the whole system
at the levels below the last and rows of the identity at the last level. -/
structure HeldParts (hash : Nat → Nat) (parent : Graph) (A : Fin parent.sizeVertex → Fin parent.sizeVertex → K)
    {ι : Type} (part : ι → List Nat) (m : ι → Nat) (s : ι → Subgraph)
    (loc : ∀ p, Fin (s p).sizeVertex → Fin parent.sizeVertex) (M' : ι → Sparse K)
    (A' : ∀ p, Fin (s p).sizeVertex → Fin (s p).sizeVertex → K) : Prop where
  sorted : ∀ p, (part p).Pairwise (· < ·)
  inside : ∀ p, ∀ v ∈ part p, v < parent.sizeVertex
  cover : ∀ v < parent.sizeVertex, ∃ p, v ∈ part p
  reach : ∀ p, SubReach hash parent (part p) (sizeMax - 1) (m p) (s p)
  mapping : ∀ p, ∀ i : Fin (s p).sizeVertex, (s p).localGlobal i = .ok (loc p i).1
  square : ∀ p, Square (M' p) (A' p)
  rows : ∀ p, ∀ (i : Fin (s p).sizeVertex) (k : Nat), (s p).vertexLevel i = .ok k → k < m p → ∀ j, A' p i j = A (loc p i) (loc p j)
  held : ∀ p, ∀ i : Fin (s p).sizeVertex, (s p).vertexLevel i = .ok (m p) → ∀ j, A' p i j = if i = j then 1 else 0
  levels : ∀ p, 1 ≤ m p

/-- The part `p` is solved with the values `z` around it and gets the values `y`: by some iterations of Jacobi or Gauss-Seidel that
start from `z`, by a call of `solve_system` of these solvers that makes at least one iteration, or by a direct solver. -/
inductive Solved (F : Scalars K N) {parent : Graph} {ι : Type} (s : ι → Subgraph)
    (loc : ∀ p, Fin (s p).sizeVertex → Fin parent.sizeVertex) (M' : ι → Sparse K)
    (A' : ∀ p, Fin (s p).sizeVertex → Fin (s p).sizeVertex → K) (p : ι) (z : Fin parent.sizeVertex → K)
    (y b' : Fin (s p).sizeVertex → K) : Prop where
  | iterations (k : Method) (hk : k ≠ .sor) (st : FixedPoint K) (w w' : List K) (hw : k = .jacobi → w.length = (s p).sizeVertex) (t : Nat)
    (h : times (step F k st (M' p) (vec b')) (t + 1) (vec fun i => z (loc p i), w) = .ok (vec y, w'))
  | solve (k : Method) (hk : k ≠ .sor) (st st' : FixedPoint K) (fuel : Nat) (hf : fuel ≤ sizeMax) (d : Conv K N) (hd : 0 < d.iteration)
    (h : solveSystem F k st (M' p) (vec fun i => z (loc p i)) (vec b') fuel = .ok (vec y, d, st'))
  | direct (pivot : Bool) (st st' : Lu K) (ht : 0 < st.tol) (hf : factorise (scalars K) pivot st (mat (A' p)) = .ok (st', true))
    (x0 : List K) (h : Lu.solve pivot st' x0 (some (vec b')) = .ok (vec y, true, 1))

/-- One iteration on the rows of a vector that solves them. -/
theorem row_error {n : Nat} (A : Fin n → Fin n → K) (b u z : Fin n → K) {i : Fin n} (hu : ∑ j, A i j * u j = b i) (hd : A i i ≠ 0) :
    relaxed A b 1 z i - u i = - Iterative.off A (fun j => z j - u j) i / A i i := by
  rw [← relaxed_error A (fun i => ∑ j, A i j * u j) u z (fun _ => rfl) hd]
  unfold relaxed
  simp only [hu]

variable {parent : Graph} {hash : Nat → Nat} {A : Fin parent.sizeVertex → Fin parent.sizeVertex → K}
  {b : Fin parent.sizeVertex → K} {ι : Type} {part : ι → List Nat} {m : ι → Nat} {s : ι → Subgraph}
  {loc : ∀ p, Fin (s p).sizeVertex → Fin parent.sizeVertex} {M' : ι → Sparse K}
  {A' : ∀ p, Fin (s p).sizeVertex → Fin (s p).sizeVertex → K}

/-- The right-hand side of a part: that of the whole system, and the values around the part at its last level. -/
def HeldRight (b : Fin parent.sizeVertex → K) (m : ι → Nat) (s : ι → Subgraph)
    (loc : ∀ p, Fin (s p).sizeVertex → Fin parent.sizeVertex) (p : ι) (z : Fin parent.sizeVertex → K) (b' : Fin (s p).sizeVertex → K) :
    Prop :=
  ∀ (i : Fin (s p).sizeVertex) (k : Nat), (s p).vertexLevel i = .ok k → b' i = if k < m p then b (loc p i) else z (loc p i)

/-- The rows of a part, and what the solution of the whole system is for it. -/
theorem held_rows (hp : Reachable false parent) (hA : Along parent A) (H : HeldParts hash parent A part m s loc M' A') (p : ι) {q : K}
    (hq0 : 0 ≤ q) (hq : ∀ i, (∑ j, if j = i then 0 else |A i j|) ≤ q * |A i i|) (hd : ∀ i, A i i ≠ 0) {sol : Fin parent.sizeVertex → K}
    (hs : Solves A sol b) {z : Fin parent.sizeVertex → K} {b' : Fin (s p).sizeVertex → K} (hb : HeldRight b m s loc p z b')
    (i : Fin (s p).sizeVertex) (k : Nat) (hk : (s p).vertexLevel i = .ok k) :
    A' p i i ≠ 0 ∧ (∑ j, if j = i then 0 else |A' p i j|) ≤ q * |A' p i i| ∧
      (k < m p → ∑ j, A' p i j * sol (loc p j) = b' i) ∧
      (¬ k < m p → b' i = z (loc p i) ∧ ∀ j, A' p i j = if i = j then 1 else 0) := by
  obtain ⟨hinj, hlev, -, -⟩ := ghost_cover hp (H.sorted p) (H.inside p) (H.reach p) (H.mapping p)
  by_cases hkm : k < m p
  · have hr := H.rows p i k hk hkm
    refine ⟨by rw [hr]; exact hd _, ?_, fun _ => ?_, fun h => absurd hkm h⟩
    · rw [hr i]
      refine le_trans ?_ (hq (loc p i))
      have e1 : ∀ j, (if j = i then 0 else |A' p i j|) = (fun v => if v = loc p i then 0 else |A (loc p i) v|) (loc p j) := by
        intro j
        by_cases hj : j = i
        · simp [hj]
        · simp [hj, hinj.ne hj, hr]
      rw [Finset.sum_congr rfl fun j _ => e1 j, ← Finset.sum_image (g := loc p) (f := fun v => if v = loc p i then 0 else |A (loc p i) v|)
        (fun _ _ _ _ h => hinj h)]
      refine Finset.sum_le_sum_of_subset_of_nonneg (Finset.subset_univ _) fun v _ _ => ?_
      show (0 : K) ≤ if _ then _ else _
      split
      · exact le_rfl
      · exact abs_nonneg _
    · have e := hs (loc p i)
      rw [off_add] at e ⊢
      rw [ghost_sum hp (H.sorted p) (H.inside p) (H.reach p) (H.mapping p) hA hk hkm hr (x := sol) (fun _ _ _ _ => rfl), hr i, e, hb i k hk,
        if_pos hkm]
  · obtain ⟨k', h1, h2⟩ := hlev i
    obtain rfl := Out.ok.inj (hk.symm.trans h1)
    obtain rfl : k = m p := by omega
    have hh := H.held p i hk
    refine ⟨by rw [hh, if_pos rfl]; exact one_ne_zero, ?_, fun h => absurd h hkm, fun _ => ⟨by rw [hb i _ hk, if_neg hkm], hh⟩⟩
    rw [hh i, if_pos rfl, abs_one, mul_one]
    refine le_trans (le_of_eq (Finset.sum_eq_zero fun j _ => ?_)) hq0
    split
    · rfl
    · rename_i hj
      rw [hh j, if_neg (Ne.symm hj), abs_zero]

/-- One iteration on a part. -/
theorem held_next (hp : Reachable false parent) (hA : Along parent A) (H : HeldParts hash parent A part m s loc M' A') (p : ι) {q : K}
    (hq0 : 0 ≤ q) (hq1 : q < 1) (hq : ∀ i, (∑ j, if j = i then 0 else |A i j|) ≤ q * |A i i|) (hd : ∀ i, A i i ≠ 0)
    {sol : Fin parent.sizeVertex → K} (hs : Solves A sol b) {z : Fin parent.sizeVertex → K} {b' : Fin (s p).sizeVertex → K}
    (hb : HeldRight b m s loc p z b') {E : K} (hz : ∀ v, |z v - sol v| ≤ E) {k : Method} (hk : k ≠ .sor) {x y : Fin (s p).sizeVertex → K}
    (hx : ∀ j, |x j - sol (loc p j)| ≤ E) (hn : Next (A' p) b' k x y) (i : Fin (s p).sizeVertex) :
    |y i - sol (loc p i)| ≤ E ∧ ∀ l, (s p).vertexLevel i = .ok l → l < m p → |y i - sol (loc p i)| ≤ q * E := by
  obtain ⟨-, hlev, -, -⟩ := ghost_cover hp (H.sorted p) (H.inside p) (H.reach p) (H.mapping p)
  have hf : factor K k = 1 := by
    cases k with
    | sor => exact absurd rfl hk
    | _ => rfl
  refine fin_strong (p := fun i => |y i - sol (loc p i)| ≤ E ∧
    ∀ l, (s p).vertexLevel i = .ok l → l < m p → |y i - sol (loc p i)| ≤ q * E) (fun i ih => ?_) i
  have hE0 : 0 ≤ E := (abs_nonneg _).trans (hx i)
  have hle : q * E ≤ E := by nlinarith
  obtain ⟨l, h1, -⟩ := hlev i
  obtain ⟨h2, h3, h4, h5⟩ := held_rows hp hA H p hq0 hq hd hs hb i l h1
  by_cases hl : l < m p
  · have key : |y i - sol (loc p i)| ≤ q * E := by
      rw [hn i, hf, row_error (A' p) b' (fun j => sol (loc p j)) _ (h4 hl) h2]
      refine off_bound (A' p) _ i q E (fun j _ => ?_) hE0 h3 h2
      split
      · exact hx j
      · show |(if j < i then y j else x j) - sol (loc p j)| ≤ E
        split
        · rename_i hj
          exact (ih j hj).1
        · exact hx j
    exact ⟨key.trans hle, fun _ _ _ => key⟩
  · obtain ⟨h6, h7⟩ := h5 hl
    have e : y i = z (loc p i) := by
      rw [hn i, hf]
      have : ∀ u, Iterative.off (A' p) u i = 0 := fun u => Finset.sum_eq_zero fun j _ => by
        split
        · rfl
        · rename_i hj
          rw [h7 j, if_neg (Ne.symm hj), zero_mul]
      unfold relaxed
      rw [this, h7 i, if_pos rfl, h6]
      ring
    exact ⟨by rw [e]; exact hz _, fun l' h8 h9 => absurd (Out.ok.inj (h1.symm.trans h8) ▸ h9) hl⟩

/-- A part that is solved exactly. -/
theorem held_exact (hp : Reachable false parent) (hA : Along parent A) (H : HeldParts hash parent A part m s loc M' A') (p : ι) {q : K}
    (hq0 : 0 ≤ q) (hq1 : q < 1) (hq : ∀ i, (∑ j, if j = i then 0 else |A i j|) ≤ q * |A i i|) (hd : ∀ i, A i i ≠ 0)
    {sol : Fin parent.sizeVertex → K} (hs : Solves A sol b) {z : Fin parent.sizeVertex → K} {b' : Fin (s p).sizeVertex → K}
    (hb : HeldRight b m s loc p z b') {E : K} (hz : ∀ v, |z v - sol v| ≤ E) {y : Fin (s p).sizeVertex → K}
    (hy : Solves (A' p) y b') (i : Fin (s p).sizeVertex) (l : Nat) (hl : (s p).vertexLevel i = .ok l) (hlm : l < m p) :
    |y i - sol (loc p i)| ≤ q * E := by
  obtain ⟨-, hlev, -, -⟩ := ghost_cover hp (H.sorted p) (H.inside p) (H.reach p) (H.mapping p)
  have hE0 : 0 ≤ E := (abs_nonneg _).trans (hz (loc p i))
  have main : ∀ (i : Fin (s p).sizeVertex) (l : Nat) (M : K), (s p).vertexLevel i = .ok l → l < m p → 0 ≤ M →
      (∀ j, |y j - sol (loc p j)| ≤ M) → |y i - sol (loc p i)| ≤ q * M := by
    intro i l M h1 hl hM0 hM
    obtain ⟨h2, h3, h4, -⟩ := held_rows hp hA H p hq0 hq hd hs hb i l h1
    have e : relaxed (A' p) b' 1 y i = y i := by
      have := hy i
      rw [off_add] at this
      unfold relaxed
      rw [← this]
      field_simp
      ring
    rw [← e, row_error (A' p) b' (fun j => sol (loc p j)) _ (h4 hl) h2]
    exact off_bound (A' p) _ i q M (fun j _ => hM j) hM0 h3 h2
  obtain ⟨j, -, hj⟩ := Finset.exists_max_image Finset.univ (fun j => |y j - sol (loc p j)|) ⟨i, Finset.mem_univ _⟩
  have hj' : ∀ j', |y j' - sol (loc p j')| ≤ |y j - sol (loc p j)| := fun j' => hj j' (Finset.mem_univ _)
  refine main i l E hl hlm hE0 fun j' => (hj' j').trans ?_
  obtain ⟨k, h1, -⟩ := hlev j
  by_cases hk : k < m p
  · have := main j k _ h1 hk (abs_nonneg _) hj'
    have h0 := abs_nonneg (y j - sol (loc p j))
    nlinarith
  · obtain ⟨-, -, -, h5⟩ := held_rows hp hA H p hq0 hq hd hs hb j k h1
    obtain ⟨h6, h7⟩ := h5 hk
    have e := hy j
    simp only [h7, ite_mul, one_mul, zero_mul, Finset.sum_ite_eq, Finset.mem_univ, if_true] at e
    rw [e, h6]
    exact hz _

/-- The iterations of a solve. -/
theorem times_of_pass {k : Method} {st : FixedPoint K} {M : Sparse K} {b : List K} {j : Nat} {u v : (List K × List K) × Conv K N}
    (h : times (pass F k st M b) j u = .ok v) : times (step F k st M b) j u.1 = .ok v.1 := by
  induction j generalizing u with
  | zero => exact congrArg (fun t => Out.ok t.1) (Out.ok.inj h)
  | succ j ih =>
    obtain ⟨w, h1, h2⟩ := times_succ_ok.mp h
    refine times_succ_ok.mpr ⟨w.1, ?_, ih h2⟩
    unfold pass at h1
    simp only [Out.bind_eq_ok, Out.pure_eq, Out.ok.injEq] at h1
    obtain ⟨a, h3, d, -, rfl⟩ := h1
    exact h3

/-- C192: a part that is solved with the values around it held gets closer to the solution of the whole system, by a factor that depends
on the matrix of the whole system only. -/
theorem c192_part (hF : Exact F) (hp : Reachable false parent) (hA : Along parent A) (hdom : Dominant A) :
    ∃ q : K, 0 ≤ q ∧ q < 1 ∧ ∀ {ι : Type} (part : ι → List Nat) (m : ι → Nat) (s : ι → Subgraph)
      (loc : ∀ p, Fin (s p).sizeVertex → Fin parent.sizeVertex) (M' : ι → Sparse K)
      (A' : ∀ p, Fin (s p).sizeVertex → Fin (s p).sizeVertex → K), HeldParts hash parent A part m s loc M' A' →
      ∀ (p : ι) (b sol z : Fin parent.sizeVertex → K), Solves A sol b → ∀ (y b' : Fin (s p).sizeVertex → K),
      HeldRight b m s loc p z b' → Solved F s loc M' A' p z y b' →
      ∀ E, (∀ v, |z v - sol v| ≤ E) → ∀ (i : Fin (s p).sizeVertex) (l : Nat), (s p).vertexLevel i = .ok l → l < m p →
        |y i - sol (loc p i)| ≤ q * E := by
  have hd := dominant_diag hdom
  obtain ⟨q, hq0, hq1, hq⟩ := exists_ratio A hdom
  refine ⟨q, hq0, hq1, ?_⟩
  intro ι part m s loc M' A' H p b sol z hs y b' hb hy E hz i l hl hlm
  have hlev := (ghost_cover hp (H.sorted p) (H.inside p) (H.reach p) (H.mapping p)).2.1
  have hd' : ∀ i, A' p i i ≠ 0 := fun i => by
    obtain ⟨l, h1, -⟩ := hlev i
    exact (held_rows hp hA H p hq0 hq hd hs hb i l h1).1
  have iter : ∀ (k : Method) (_ : k ≠ .sor) (st : FixedPoint K) (w w' : List K) (_ : k = .jacobi → w.length = (s p).sizeVertex) (t : Nat)
      (_ : times (step F k st (M' p) (vec b')) (t + 1) (vec fun i => z (loc p i), w) = .ok (vec y, w')),
      |y i - sol (loc p i)| ≤ q * E := by
    intro k hk st w w' hw t h
    obtain ⟨xs, x0, x1, x2⟩ := iterates_next hF k st (H.square p) hd' b' _ w hw
    have hb2 : ∀ t, ∀ j, |xs t j - sol (loc p j)| ≤ E := by
      intro t
      induction t with
      | zero => intro j; rw [x0]; exact hz _
      | succ t ih => intro j; exact (held_next hp hA H p hq0 hq1 hq hd hs hb hz hk ih (x2 t) j).1
    obtain ⟨v, e⟩ := x1 (t + 1)
    have hy' : y = xs (t + 1) := vec_inj.mp (congrArg Prod.fst (Out.ok.inj (h.symm.trans e)))
    rw [hy']
    exact (held_next hp hA H p hq0 hq1 hq hd hs hb hz hk (hb2 t) (x2 t) i).2 l hl hlm
  cases hy with
  | iterations k hk st w w' hw t h => exact iter k hk st w w' hw t h
  | solve k hk st st' fuel hf d hd0 h =>
    obtain ⟨-, h2, -, -⟩ := solve_count hf h
    obtain ⟨t, ht⟩ := Nat.exists_eq_succ_of_ne_zero hd0.ne'
    rw [ht] at h2
    exact iter k hk st _ _ (fun h => by rw [startWorking_length _ _ _ h]; exact (H.square p).2.1) t (times_of_pass h2)
  | direct pivot st st' ht hf x0 h =>
    obtain ⟨x, h1, h2⟩ := c43_solves pivot st st' ht (A' p) hf b' x0
    have hy' : y = x := vec_inj.mp (congrArg Prod.fst (Out.ok.inj (h.symm.trans h1)))
    exact held_exact hp hA H p hq0 hq1 hq hd hs hb hz (hy' ▸ h2) i l hl hlm

/-- The vertex `v` gets the value `a` from a part that has been solved with the values `z`, and that holds the vertex inside. -/
def Refreshed (F : Scalars K N) (b : Fin parent.sizeVertex → K) (m : ι → Nat) (s : ι → Subgraph)
    (loc : ∀ p, Fin (s p).sizeVertex → Fin parent.sizeVertex) (M' : ι → Sparse K)
    (A' : ∀ p, Fin (s p).sizeVertex → Fin (s p).sizeVertex → K) (z : Fin parent.sizeVertex → K) (v : Fin parent.sizeVertex) (a : K) : Prop :=
  ∃ (p : ι) (i : Fin (s p).sizeVertex) (l : Nat) (y b' : Fin (s p).sizeVertex → K), HeldRight b m s loc p z b' ∧
    Solved F s loc M' A' p z y b' ∧ loc p i = v ∧ (s p).vertexLevel i = .ok l ∧ l < m p ∧ a = y i

/-- C192: rounds in which every vertex gets a new value from one of the parts that hold it. -/
theorem c192_rounds (hF : Exact F) (hp : Reachable false parent) (hA : Along parent A) (hdom : Dominant A) :
    ∃ q : K, 0 ≤ q ∧ q < 1 ∧ ∀ {ι : Type} (part : ι → List Nat) (m : ι → Nat) (s : ι → Subgraph)
      (loc : ∀ p, Fin (s p).sizeVertex → Fin parent.sizeVertex) (M' : ι → Sparse K)
      (A' : ∀ p, Fin (s p).sizeVertex → Fin (s p).sizeVertex → K), HeldParts hash parent A part m s loc M' A' →
      ∀ (b sol : Fin parent.sizeVertex → K), Solves A sol b → ∀ z : Nat → Fin parent.sizeVertex → K,
      (∀ T v, Refreshed F b m s loc M' A' (z T) v (z (T + 1) v)) →
      ∀ E, (∀ v, |z 0 v - sol v| ≤ E) → ∀ T v, |z T v - sol v| ≤ q ^ T * E := by
  obtain ⟨q, hq0, hq1, h⟩ := c192_part (hash := hash) hF hp hA hdom
  refine ⟨q, hq0, hq1, ?_⟩
  intro ι part m s loc M' A' H b sol hs z hz E hE T
  induction T with
  | zero => intro v; rw [pow_zero, one_mul]; exact hE v
  | succ T ih =>
    intro v
    obtain ⟨p, i, l, y, b', h1, h2, rfl, h4, h5, h6⟩ := hz T v
    rw [h6, pow_succ', mul_assoc]
    exact h part m s loc M' A' H p b sol (z T) hs y b' h1 h2 _ ih i l h4 h5

/-- C192: the rounds can be run from any values, by one iteration of either method or by more, in each part. -/
theorem c192_exists (hF : Exact F) (hp : Reachable false parent) (hA : Along parent A) (hdom : Dominant A)
    (H : HeldParts hash parent A part m s loc M' A') (k : ι → Method) (hk : ∀ p, k p ≠ .sor) (t : ι → Nat)
    (b x : Fin parent.sizeVertex → K) :
    ∃ z : Nat → Fin parent.sizeVertex → K, z 0 = x ∧ ∀ T v, Refreshed F b m s loc M' A' (z T) v (z (T + 1) v) := by
  obtain ⟨sol, hs, -⟩ := dominant_solution A hdom b
  obtain ⟨q, hq0, hq1, hq⟩ := exists_ratio A hdom
  choose lev hlev using fun p => (ghost_cover hp (H.sorted p) (H.inside p) (H.reach p) (H.mapping p)).2.1
  choose own hown using fun v : Fin parent.sizeVertex => H.cover v v.2
  choose pos hpos1 hpos2 using fun v : Fin parent.sizeVertex =>
    ghost_owner hp (H.sorted (own v)) (H.inside (own v)) (H.reach (own v)) (H.mapping (own v)) v (hown v)
  let right : (Fin parent.sizeVertex → K) → ∀ p, Fin (s p).sizeVertex → K := fun z p i =>
    if lev p i < m p then b (loc p i) else z (loc p i)
  have hright : ∀ z p, HeldRight b m s loc p z (right z p) := fun z p i l hl => by
    obtain rfl := Out.ok.inj ((hlev p i).1.symm.trans hl)
    rfl
  have hd' : ∀ p i, A' p i i ≠ 0 := fun p i =>
    (held_rows hp hA H p hq0 hq (dominant_diag hdom) hs (hright sol p) i (lev p i) (hlev p i).1).1
  have hstep : ∀ (z : Fin parent.sizeVertex → K) (p : ι), ∃ y, Solved F s loc M' A' p z y (right z p) := by
    intro z p
    obtain ⟨xs, -, x1, -⟩ := iterates_next hF (k p) ⟨⟨0, 0, 0⟩, [], 0⟩ (H.square p) (hd' p) (right z p) (fun i => z (loc p i))
      (List.replicate (s p).sizeVertex 0) (fun _ => List.length_replicate)
    obtain ⟨w', e⟩ := x1 (t p + 1)
    exact ⟨_, .iterations (k p) (hk p) _ _ w' (fun _ => List.length_replicate) (t p) e⟩
  choose Y hY using hstep
  let z : Nat → Fin parent.sizeVertex → K := fun T => Nat.rec x (fun _ u v => Y u (own v) (pos v)) T
  exact ⟨z, rfl, fun T v => ⟨own v, pos v, 0, Y (z T) (own v), right (z T) (own v), hright _ _, hY _ _, hpos1 v, hpos2 v, H.levels _, rfl⟩⟩

end parts

section order

variable {N : Type} {F : Scalars ℝ N} {parent : Graph} {hash : Nat → Nat} {A : Fin parent.sizeVertex → Fin parent.sizeVertex → ℝ}
  {ι : Type} {part : ι → List Nat} {m : ι → Nat} {s : ι → Subgraph}
  {loc : ∀ p, Fin (s p).sizeVertex → Fin parent.sizeVertex} {M' : ι → Sparse ℝ}
  {A' : ∀ p, Fin (s p).sizeVertex → Fin (s p).sizeVertex → ℝ}

/-- C192: the parts may be solved in any order, one after the other or some at the same time, as long as every vertex gets a new value
again and again: the values tend to the solution. -/
theorem c192_converges (hF : Exact F) (hp : Reachable false parent) (hA : Along parent A) (hdom : Dominant A)
    (H : HeldParts hash parent A part m s loc M' A') (b : Fin parent.sizeVertex → ℝ) (z : Nat → Fin parent.sizeVertex → ℝ)
    (hz : ∀ T v, z (T + 1) v = z T v ∨ Refreshed F b m s loc M' A' (z T) v (z (T + 1) v))
    (hoften : ∀ v T, ∃ T', T ≤ T' ∧ Refreshed F b m s loc M' A' (z T') v (z (T' + 1) v)) :
    ∃ sol, Solves A sol b ∧ (∀ y, Solves A y b → y = sol) ∧ ∀ ε, 0 < ε → ∃ T0, ∀ T, T0 ≤ T → ∀ v, |z T v - sol v| < ε := by
  obtain ⟨sol, hs, huniq⟩ := dominant_solution A hdom b
  refine ⟨sol, hs, huniq, ?_⟩
  obtain ⟨q, hq0, hq1, h⟩ := c192_part (hash := hash) hF hp hA hdom
  have hpart : ∀ (T : Nat) (v : Fin parent.sizeVertex) (E : ℝ), (∀ v, |z T v - sol v| ≤ E) →
      Refreshed F b m s loc M' A' (z T) v (z (T + 1) v) → |z (T + 1) v - sol v| ≤ q * E := by
    rintro T v E hE ⟨p, i, l, y, b', h1, h2, rfl, h4, h5, h6⟩
    rw [h6]
    exact h part m s loc M' A' H p b sol (z T) hs y b' h1 h2 _ hE i l h4 h5
  -- the errors do not grow
  have hstay : ∀ (T0 : Nat) (E : ℝ), (∀ v, |z T0 v - sol v| ≤ E) → ∀ T, T0 ≤ T → ∀ v, |z T v - sol v| ≤ E := by
    intro T0 E hE T hT
    induction T, hT using Nat.le_induction with
    | base => exact hE
    | succ T _ ih =>
      intro v
      have hE0 : 0 ≤ E := (abs_nonneg _).trans (hE v)
      rcases hz T v with e | e
      · rw [e]; exact ih v
      · exact (hpart T v E ih e).trans (by nlinarith)
  -- they become smaller
  have hless : ∀ (T0 : Nat) (E : ℝ), (∀ v, |z T0 v - sol v| ≤ E) → ∃ T1, ∀ v, |z T1 v - sol v| ≤ q * E := by
    intro T0 E hE
    choose S hS1 hS2 using fun v => hoften v T0
    refine ⟨Finset.univ.sup fun v => S v + 1, fun v => ?_⟩
    have hkeep : ∀ T, S v + 1 ≤ T → |z T v - sol v| ≤ q * E := by
      intro T hT
      induction T, hT using Nat.le_induction with
      | base => exact hpart _ v E (hstay T0 E hE _ (hS1 v)) (hS2 v)
      | succ T hT ih =>
        rcases hz T v with e | e
        · rw [e]; exact ih
        · exact hpart T v E (hstay T0 E hE T (by have := hS1 v; omega)) e
    exact hkeep _ (Finset.le_sup (f := fun v => S v + 1) (Finset.mem_univ v))
  obtain ⟨E, hE⟩ : ∃ E, ∀ v, |z 0 v - sol v| ≤ E :=
    ⟨∑ v, |z 0 v - sol v|, fun v => Finset.single_le_sum (f := fun v => |z 0 v - sol v|) (fun _ _ => abs_nonneg _) (Finset.mem_univ v)⟩
  have hpow : ∀ j : Nat, ∃ T1, ∀ v, |z T1 v - sol v| ≤ q ^ j * E := by
    intro j
    induction j with
    | zero => exact ⟨0, fun v => by rw [pow_zero, one_mul]; exact hE v⟩
    | succ j ih =>
      obtain ⟨T1, h1⟩ := ih
      obtain ⟨T2, h2⟩ := hless T1 _ h1
      exact ⟨T2, fun v => by rw [pow_succ', mul_assoc]; exact h2 v⟩
  intro ε hε
  obtain ⟨j, hj⟩ := exists_pow_lt_of_lt_one (show 0 < ε / (|E| + 1) by positivity) hq1
  obtain ⟨T0, hT0⟩ := hpow j
  refine ⟨T0, fun T hT v => lt_of_le_of_lt (hstay T0 _ hT0 T hT v) ?_⟩
  rw [lt_div_iff₀ (by positivity)] at hj
  have h0 := pow_nonneg hq0 j
  nlinarith [le_abs_self E]

end order

/-! ### A path of three vertices in two parts -/

/-- The parts with one level each. -/
def heldSub (p : Bool) : Subgraph :=
  if p then ⟨⟨[1, 0], [0, 1, 2]⟩, [0, 1], [0, 1], 3 ^^^ 2 ^^^ 1 ^^^ 1⟩
  else ⟨⟨[1, 2, 0, 0], [0, 2, 3, 4]⟩, [1, 2, 0], [0, 0, 1], 3 ^^^ 2 ^^^ 1 ^^^ 1⟩

/-- The vertices of the parts. -/
def heldLoc : ∀ p, Fin (heldSub p).sizeVertex → Fin path3.sizeVertex
  | true => (![0, 1] : Fin 2 → Fin 3)
  | false => (![1, 2, 0] : Fin 3 → Fin 3)

/-- The matrices of the parts. -/
def heldMatrix : Bool → Sparse ℚ
  | true => dense2 2 (-1) 0 1
  | false => ⟨[0, 3, 6, 9], [0, 1, 2, 0, 1, 2, 0, 1, 2], [3, -1, -1, -1, 2, 0, 0, 0, 1], 3⟩

/-- Their elements. -/
def heldElements : ∀ p, Fin (heldSub p).sizeVertex → Fin (heldSub p).sizeVertex → ℚ
  | true => (![![2, -1], ![0, 1]] : Fin 2 → Fin 2 → ℚ)
  | false => (![![3, -1, -1], ![-1, 2, 0], ![0, 0, 1]] : Fin 3 → Fin 3 → ℚ)

/-- The elements of the whole matrix. -/
def heldWhole : Fin path3.sizeVertex → Fin path3.sizeVertex → ℚ := (![![2, -1, 0], ![-1, 3, -1], ![0, -1, 2]] : Fin 3 → Fin 3 → ℚ)

/-- The hypotheses hold for a path of three vertices in two parts. -/
example : Along path3 heldWhole ∧ Dominant heldWhole ∧
    HeldParts id path3 heldWhole (fun p => if p then [0] else [1, 2]) (fun _ => 1) heldSub heldLoc heldMatrix heldElements := by
  refine ⟨?_, ?_, ⟨by decide, by decide, by decide, ?_, ?_, ?_, ?_, ?_, fun _ => le_rfl⟩⟩
  · intro i j hij h
    have hA : ∀ u v : Nat, (∃ r, path3.nbrs u = .ok r ∧ v ∈ r) → Adj path3 u v := fun u v h => h
    fin_cases i <;> fin_cases j <;> first
      | rfl
      | exact absurd rfl hij
      | exact absurd (hA _ _ ⟨_, rfl, by decide⟩) h
  · intro i
    fin_cases i <;> decide +kernel
  · intro p
    cases p
    · exact .make (by decide) (by decide +kernel)
    · exact .make (by decide) (by decide +kernel)
  · intro p
    cases p <;> intro i <;> fin_cases i <;> rfl
  · intro p
    cases p
    · refine ⟨Built.ofLists (nz := [0, 3, 6, 9]) (ix := [0, 1, 2, 0, 1, 2, 0, 1, 2]) (vs := [3, -1, -1, -1, 2, 0, 0, 0, 1]) (c := 3)
        (m := heldMatrix false) (by simp [sizeMax]) (by simp [sizeMax]) (by decide +kernel), rfl, rfl, ?_⟩
      intro i j
      fin_cases i <;> fin_cases j <;> rfl
    · exact dense2_square _ _ _ _
  · intro p
    cases p <;> intro i k hk hk1 j <;> fin_cases i <;> fin_cases j <;> first
      | rfl
      | (exfalso; have := Out.ok.inj hk; omega)
  · intro p
    cases p <;> intro i hk j <;> fin_cases i <;> fin_cases j <;> first
      | rfl
      | (exfalso; have := Out.ok.inj hk; omega)

end Disa.Props
