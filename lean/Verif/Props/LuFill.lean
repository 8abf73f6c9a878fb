import Verif.Props.LuBand
import Verif.Props.Profile
import Verif.Props.SubResize
import Verif.Props.TreeOrder

/-!
# Property C210: fill-in of the direct solver follows paths through unknowns that come before
-/

namespace Disa.Props

open Disa Spec Dense Num Lu

/-- A path from `r` to `c` along elements of the matrix that are not zero, by way of unknowns below `k` only. -/
inductive Via {K : Type} [Zero K] {n : Nat} (A : Fin n → Fin n → K) (k : Nat) : Fin n → Fin n → Prop
  | one {r c : Fin n} (h : A r c ≠ 0) : Via A k r c
  | step {r v c : Fin n} (h : A r v ≠ 0) (hv : v.1 < k) (hp : Via A k v c) : Via A k r c

section

variable {K : Type} [Zero K] {n : Nat} {A : Fin n → Fin n → K}

theorem Via.mono {k l : Nat} (hkl : k ≤ l) {r c : Fin n} (h : Via A k r c) : Via A l r c := by
  induction h with
  | one h => exact .one h
  | step h hv _ ih => exact .step h (by omega) ih

theorem Via.join {k : Nat} {r v c : Fin n} (h1 : Via A k r v) (hv : v.1 < k) (h2 : Via A k v c) : Via A k r c := by
  induction h1 with
  | one h => exact .step h hv h2
  | step h hw _ ih => exact .step h hw (ih hv h2)

theorem Via.last {k : Nat} {r c : Fin n} (h : Via A k r c) : A r c ≠ 0 ∨ ∃ v : Fin n, v.1 < k ∧ A v c ≠ 0 := by
  induction h with
  | one h => exact .inl h
  | @step r v c h hv _ ih =>
    rcases ih with h1 | h1
    · exact .inr ⟨v, hv, h1⟩
    · exact .inr h1

theorem Via.first {k : Nat} {r c : Fin n} (h : Via A k r c) : A r c ≠ 0 ∨ ∃ v : Fin n, v.1 < k ∧ A r v ≠ 0 := by
  cases h with
  | one h => exact .inl h
  | step h hv _ => exact .inr ⟨_, hv, h⟩

/-- A path splits at the largest unknown on its way. -/
theorem Via.split {k : Fin n} {r c : Fin n} (h : Via A (k.1 + 1) r c) : Via A k.1 r c ∨ (Via A k.1 r k ∧ Via A k.1 k c) := by
  induction h with
  | one h => exact .inl (.one h)
  | @step r v c h hv hp ih =>
    by_cases hk : v.1 < k.1
    · rcases ih with h1 | ⟨h1, h2⟩
      · exact .inl (.step h hk h1)
      · exact .inr ⟨.step h hk h1, h2⟩
    · obtain rfl : v = k := Fin.ext (by omega)
      rcases ih with h1 | ⟨-, h2⟩
      · exact .inr ⟨.one h, h1⟩
      · exact .inr ⟨.one h, h2⟩

variable [Sub K] [Mul K] [Div K] {M : Fin n → Fin n → K}

theorem less_zeros (h0 : (0 : K) - 0 = 0) {v : K} (hv : v = 0) {f : Fin n → K} {m : Nat} (hf : ∀ k : Fin n, k.1 < m → f k = 0) :
    less v f 0 m = 0 := by
  induction m with
  | zero => exact hv
  | succ m ih =>
    have h1 := ih fun k hk => hf k (by omega)
    rw [less]
    split
    · rw [h1, hf _ (by simp), h0]
    · exact h1

/-- An element of the factors that is not zero comes from the matrix or from two other elements. -/
theorem fill_step (h0 : (0 : K) - 0 = 0) (hdiv : ∀ c, (0 : K) / M c c = 0) (hmul : ∀ r k c, M r k = 0 ∨ M k c = 0 → M r k * M k c = 0)
    (hc : ∀ r c : Fin n, (c < r → M r c = less (A r c) (fun k => M r k * M k c) 0 c.1 / M c c) ∧
      (r ≤ c → M r c = less (A r c) (fun k => M r k * M k c) 0 r.1)) {r c : Fin n} (h : M r c ≠ 0) :
    A r c ≠ 0 ∨ ∃ k, k < r ∧ k < c ∧ M r k ≠ 0 ∧ M k c ≠ 0 := by
  by_contra hx
  push Not at hx
  obtain ⟨h1, h2⟩ := hx
  have h3 : ∀ k, k < r → k < c → M r k * M k c = 0 := fun k hkr hkc => by
    refine hmul r k c ?_
    by_cases hk : M r k = 0
    · exact .inl hk
    · exact .inr (h2 k hkr hkc hk)
  rcases lt_or_ge c r with hrc | hrc
  · apply h
    rw [(hc r c).1 hrc, less_zeros h0 h1 (fun k hk => h3 k (lt_trans (show k < c from hk) hrc) hk), hdiv]
  · apply h
    rw [(hc r c).2 hrc, less_zeros h0 h1 (fun k hk => h3 k hk (lt_of_lt_of_le (show k < r from hk) hrc))]

theorem fill_via (hstep : ∀ r c : Fin n, M r c ≠ 0 → A r c ≠ 0 ∨ ∃ k, k < r ∧ k < c ∧ M r k ≠ 0 ∧ M k c ≠ 0) {r c : Fin n} (h : M r c ≠ 0) :
    Via A (min r.1 c.1) r c := by
  have key : ∀ (l : Nat) (r c : Fin n), min r.1 c.1 = l → M r c ≠ 0 → Via A l r c := by
    intro l
    induction l using Nat.strong_induction_on with
    | _ l ih =>
      intro r c hl h
      rcases hstep r c h with h1 | ⟨k, h1, h2, h3, h4⟩
      · exact .one h1
      · have hkr : k.1 < r.1 := h1
        have hkc : k.1 < c.1 := h2
        have p1 := ih k.1 (by omega) r k (by omega) h3
        have p2 := ih k.1 (by omega) k c (by omega) h4
        exact (p1.mono (by omega)).join (by omega) (p2.mono (by omega))
  exact key _ r c rfl h

end

/-- If nothing cancels, each path gives an element of the factors that is not zero. -/
theorem via_fill {K : Type} [Zero K] {n : Nat} {A M : Fin n → Fin n → K}
    (hstep : ∀ r c : Fin n, r ≠ c → (A r c ≠ 0 ∨ ∃ k, k < r ∧ k < c ∧ M r k ≠ 0 ∧ M k c ≠ 0) → M r c ≠ 0) {r c : Fin n} (hrc : r ≠ c)
    (h : Via A (min r.1 c.1) r c) : M r c ≠ 0 := by
  have key : ∀ (l : Nat) (r c : Fin n), l ≤ min r.1 c.1 → r ≠ c → Via A l r c →
      A r c ≠ 0 ∨ ∃ k, k < r ∧ k < c ∧ M r k ≠ 0 ∧ M k c ≠ 0 := by
    intro l
    induction l with
    | zero =>
      intro r c _ _ hv
      cases hv with
      | one h => exact .inl h
      | step _ hv _ => exact absurd hv (Nat.not_lt_zero _)
    | succ l ih =>
      intro r c hl hne hv
      have hln : l < n := by omega
      rcases Via.split (k := ⟨l, hln⟩) hv with h1 | ⟨h1, h2⟩
      · exact ih r c (by omega) hne h1
      · have hkr : (⟨l, hln⟩ : Fin n) < r := show l < r.1 by omega
        have hkc : (⟨l, hln⟩ : Fin n) < c := show l < c.1 by omega
        exact .inr ⟨⟨l, hln⟩, hkr, hkc,
          hstep _ _ hkr.ne' (ih r _ (by simp only [le_min_iff]; omega) hkr.ne' h1),
          hstep _ _ hkc.ne (ih _ c (by simp only [le_min_iff]; omega) hkc.ne h2)⟩
  exact hstep r c hrc (key _ r c le_rfl hrc h)

/-! ### Matrices along the edges of a graph -/

section graph

variable {g : Graph} (h : Reachable false g) {K : Type} [Field K] {A M : Fin g.sizeVertex → Fin g.sizeVertex → K} (hA : Along g A)

include hA in
theorem along_adj {r c : Fin g.sizeVertex} (hrc : r ≠ c) (h0 : A r c ≠ 0) : Adj g r c := by
  by_contra hc
  exact h0 (hA r c hrc hc)

include h hA in
/-- Paths through earlier unknowns stay in the profile. -/
theorem via_profile {r c : Fin g.sizeVertex} (hv : Via A (min r.1 c.1) r c) :
    (c < r → InProfile g r c) ∧ (r < c → InProfile g c r) := by
  refine ⟨fun hrc => ?_, fun hrc => ?_⟩
  · have hrc' : c.1 < r.1 := hrc
    rcases hv.first with h1 | ⟨v, hv, h1⟩
    · exact ⟨hrc', c.1, le_rfl, along_adj hA hrc.ne' h1⟩
    · exact ⟨hrc', v.1, by omega, along_adj hA (fun e => by subst e; omega) h1⟩
  · have hrc' : r.1 < c.1 := hrc
    rcases hv.last with h1 | ⟨v, hv, h1⟩
    · exact ⟨hrc', r.1, le_rfl, (c02_symmetric g h _ _).mp (along_adj hA hrc.ne h1)⟩
    · exact ⟨hrc', v.1, by omega, (c02_symmetric g h _ _).mp (along_adj hA (fun e => by subst e; omega) h1)⟩

omit [Field K] in
include h in
/-- No more elements of either triangle than the profile has positions. -/
theorem count_profile [Zero K] (hp : ∀ r c, M r c ≠ 0 → (c < r → InProfile g r c) ∧ (r < c → InProfile g c r)) :
    Set.ncard {x : Fin g.sizeVertex × Fin g.sizeVertex | x.2 < x.1 ∧ M x.1 x.2 ≠ 0} ≤ profile g ∧
    Set.ncard {x : Fin g.sizeVertex × Fin g.sizeVertex | x.1 < x.2 ∧ M x.1 x.2 ≠ 0} ≤ profile g := by
  constructor
  · refine Set.ncard_le_ncard_of_injOn (fun x => (x.1.1, x.2.1)) (fun x hx => (hp _ _ hx.2).1 hx.1) ?_ (profile_finite h)
    rintro ⟨i, j⟩ - ⟨i', j'⟩ - he
    simp only [Prod.mk.injEq] at he
    exact Prod.ext (Fin.ext he.1) (Fin.ext he.2)
  · refine Set.ncard_le_ncard_of_injOn (fun x => (x.2.1, x.1.1)) (fun x hx => (hp _ _ hx.2).2 hx.1) ?_ (profile_finite h)
    rintro ⟨i, j⟩ - ⟨i', j'⟩ - he
    simp only [Prod.mk.injEq] at he
    exact Prod.ext (Fin.ext he.2) (Fin.ext he.1)

/-- Any two neighbours of a vertex with larger numbers than its own are neighbours of each other. -/
def LaterJoined (g : Graph) : Prop := ∀ k i j, k < i → k < j → i ≠ j → Adj g k i → Adj g k j → Adj g i j

include h hA in
theorem joined_no_fill (hj : LaterJoined g)
    (hstep : ∀ r c : Fin g.sizeVertex, M r c ≠ 0 → A r c ≠ 0 ∨ ∃ k, k < r ∧ k < c ∧ M r k ≠ 0 ∧ M k c ≠ 0)
    {r c : Fin g.sizeVertex} (hrc : r ≠ c) (hM : M r c ≠ 0) : Adj g r c := by
  have key : ∀ (l : Nat) (r c : Fin g.sizeVertex), min r.1 c.1 = l → r ≠ c → M r c ≠ 0 → Adj g r c := by
    intro l
    induction l using Nat.strong_induction_on with
    | _ l ih =>
      intro r c hl hne h0
      rcases hstep r c h0 with h1 | ⟨k, h1, h2, h3, h4⟩
      · exact along_adj hA hne h1
      · have hkr : k.1 < r.1 := h1
        have hkc : k.1 < c.1 := h2
        exact hj k r c hkr hkc (fun e => hne (Fin.ext e)) ((c02_symmetric g h _ _).mp (ih k.1 (by omega) r k (by omega) h1.ne' h3))
          (ih k.1 (by omega) k c (by omega) h2.ne h4)
  exact key _ r c rfl hrc hM

include h in
theorem after_joined (ha : OneAfter g) : LaterJoined g := by
  intro k i j hi hj hij h1 h2
  have h3 := (adj_lt h h1).2
  obtain ⟨v, -, hv⟩ := ha k (by omega)
  exact absurd ((hv i ⟨hi, h1⟩).trans (hv j ⟨hj, h2⟩).symm) hij

end graph

/-! ### Doubles -/

theorem pivots_double (s s' : Lu (Num binary64)) {t : ℚ} (ht : 0 < t) (hs : s.tol = fin t) {n : Nat} (B : Fin n → Fin n → ℚ)
    (hf : factorise (Num.arith binary64) false s (mat fun r c => (fin (B r c) : Num binary64)) = .ok (s', true))
    (M : Fin n → Fin n → ℚ) (hM : s'.lu = mat fun r c => (fin (M r c) : Num binary64)) (k : Fin n) : M k k ≠ 0 := by
  have h := rounds_binary64
  have h1 : u64 < 1 := by norm_num
  obtain ⟨p, M', st, ok, e1, e2⟩ := factorise_rounded h h1 false s ht hs fun r c => (fin (B r c) : Num binary64)
  rw [hf] at e1
  simp only [Out.ok.injEq, Prod.mk.injEq] at e1
  obtain ⟨rfl, rfl⟩ := e1
  obtain rfl : M' = fun r c => fin (M r c) := mat_inj.mp hM
  have := (e2 rfl).diag k k.2
  rw [hs] at this
  exact ne_zero_of_accepted ht this rfl

theorem fill_double (s s' : Lu (Num binary64)) {t : ℚ} (ht : 0 < t) (hs : s.tol = fin t) {n : Nat} (B : Fin n → Fin n → ℚ)
    (hf : factorise (Num.arith binary64) false s (mat fun r c => (fin (B r c) : Num binary64)) = .ok (s', true))
    (M : Fin n → Fin n → ℚ) (hM : s'.lu = mat fun r c => (fin (M r c) : Num binary64)) (r c : Fin n) (h : M r c ≠ 0) :
    B r c ≠ 0 ∨ ∃ k, k < r ∧ k < c ∧ M r k ≠ 0 ∧ M k c ≠ 0 := by
  have hz : ∀ q : ℚ, (fin q : Num binary64) = 0 ↔ q = 0 := fun q => fin_inj
  have hd := pivots_double s s' ht hs B hf M hM
  have hc := factorise_closed (Num.arith binary64) s s' _ _ hf hM
  have hsub : (0 : Num binary64) - 0 = 0 := by
    have := less_lead (n := 1) (v := fin 0) (f := fun _ => fin 0) (a := 1) (m := 0) double_zero fun _ _ => rfl
    exact this
  have key := fill_step (K := Num binary64) (A := fun r c => fin (B r c)) (M := fun r c => fin (M r c)) hsub
    (fun c => zero_div64 (hd c)) (fun r k c hx => by
      rcases hx with hx | hx
      · rw [hx]; exact fin_zero_times ⟨_, rfl⟩
      · rw [hx]; exact times_fin_zero ⟨_, rfl⟩) hc (r := r) (c := c) (fun e => h ((hz _).mp e))
  rcases key with h1 | ⟨k, h1, h2, h3, h4⟩
  · exact .inl fun e => h1 ((hz _).mpr e)
  · exact .inr ⟨k, h1, h2, fun e => h3 ((hz _).mpr e), fun e => h4 ((hz _).mpr e)⟩

/-- C210: without pivoting, an element of the factors of a matrix of doubles is zero unless a path of elements of the matrix leads from
its row to its column by way of unknowns before both. -/
theorem c210_paths (s s' : Lu (Num binary64)) {t : ℚ} (ht : 0 < t) (hs : s.tol = fin t) {n : Nat} (B : Fin n → Fin n → ℚ)
    (hf : factorise (Num.arith binary64) false s (mat fun r c => (fin (B r c) : Num binary64)) = .ok (s', true))
    (M : Fin n → Fin n → ℚ) (hM : s'.lu = mat fun r c => (fin (M r c) : Num binary64)) (r c : Fin n) (h : M r c ≠ 0) :
    Via B (min r.1 c.1) r c :=
  fill_via (fill_double s s' ht hs B hf M hM) h

/-- C210: for a matrix along the edges of a graph the factors stay in the profile. -/
theorem c210_profile (g : Graph) (h : Reachable false g) (s s' : Lu (Num binary64)) {t : ℚ} (ht : 0 < t) (hs : s.tol = fin t)
    (B : Fin g.sizeVertex → Fin g.sizeVertex → ℚ) (hB : Along g B)
    (hf : factorise (Num.arith binary64) false s (mat fun r c => (fin (B r c) : Num binary64)) = .ok (s', true))
    (M : Fin g.sizeVertex → Fin g.sizeVertex → ℚ) (hM : s'.lu = mat fun r c => (fin (M r c) : Num binary64)) :
    (∀ r c, M r c ≠ 0 → (c < r → InProfile g r c) ∧ (r < c → InProfile g c r)) ∧
    Set.ncard {x : Fin g.sizeVertex × Fin g.sizeVertex | x.2 < x.1 ∧ M x.1 x.2 ≠ 0} ≤ profile g ∧
    Set.ncard {x : Fin g.sizeVertex × Fin g.sizeVertex | x.1 < x.2 ∧ M x.1 x.2 ≠ 0} ≤ profile g :=
  have key := fun r c h0 => via_profile h hB (c210_paths s s' ht hs B hf M hM r c h0)
  ⟨key, count_profile h key⟩

/-- C210: if the later neighbours of every vertex are neighbours of each other, there is no fill-in at all. -/
theorem c210_no_fill (g : Graph) (h : Reachable false g) (hj : LaterJoined g) (s s' : Lu (Num binary64)) {t : ℚ} (ht : 0 < t)
    (hs : s.tol = fin t) (B : Fin g.sizeVertex → Fin g.sizeVertex → ℚ) (hB : Along g B)
    (hf : factorise (Num.arith binary64) false s (mat fun r c => (fin (B r c) : Num binary64)) = .ok (s', true))
    (M : Fin g.sizeVertex → Fin g.sizeVertex → ℚ) (hM : s'.lu = mat fun r c => (fin (M r c) : Num binary64)) : Along g M :=
  fun r c hrc hadj => by
    by_contra h0
    exact hadj (joined_no_fill h hB hj (fill_double s s' ht hs B hf M hM) hrc h0)

/-- C210: so for a tree of any shape after `cuthill_mckee_reverse`. -/
theorem c210_tree (sort : List (Nat × Nat) → List (Nat × Nat)) (hsort : DegreeSort sort) (g : Graph) (h : Reachable false g)
    (ht : Tree g) (root : Nat) (hroot : root < g.sizeVertex ∨ root = sizeMax ∧ 1 < g.sizeVertex) (s : Lu (Num binary64)) {t : ℚ}
    (h0 : 0 < t) (hs : s.tol = fin t) :
    ∃ q g', g.cuthillMckeeReverse sort root = .ok q ∧ g.reorder q = .ok (g', g) ∧
      ∀ B : Fin g'.sizeVertex → Fin g'.sizeVertex → ℚ, Along g' B → ∀ s',
        factorise (Num.arith binary64) false s (mat fun r c => (fin (B r c) : Num binary64)) = .ok (s', true) →
        ∀ M : Fin g'.sizeVertex → Fin g'.sizeVertex → ℚ, s'.lu = mat (fun r c => (fin (M r c) : Num binary64)) → Along g' M := by
  obtain ⟨p, -, q, g', hp, -, -, h1, h2, h3⟩ := c193_cuthill_mckee sort hsort g h ht root hroot
  have h4 : Reachable false g' := by
    obtain ⟨q', k1, k2, -⟩ := (c20_reverse sort hsort g h root).1 p hp
    obtain rfl : q' = q := Out.ok.inj (k1.symm.trans h1)
    obtain ⟨g1, m1, m2, -⟩ := reorder_spec h k2
    obtain rfl : g1 = g' := congrArg Prod.fst (Out.ok.inj (m1.symm.trans h2))
    exact m2
  exact ⟨q, g', h1, h2, fun B hB s' hf M hM => c210_no_fill g' h4 (after_joined h4 h3) s s' h0 hs B hB hf M hM⟩

/-! ### Exact arithmetic -/

section exact

variable {K : Type} [Field K] [LinearOrder K] [IsStrictOrderedRing K] {n : Nat}

theorem less_le {v : K} {f : Fin n → K} {m : Nat} (hf : ∀ k : Fin n, k.1 < m → 0 ≤ f k) :
    less v f 0 m ≤ v ∧ ∀ k : Fin n, k.1 < m → less v f 0 m ≤ v - f k := by
  induction m with
  | zero => exact ⟨le_rfl, fun k hk => absurd hk (Nat.not_lt_zero _)⟩
  | succ m ih =>
    obtain ⟨h1, h2⟩ := ih fun k hk => hf k (by omega)
    rw [less]
    split
    · rename_i hm
      have h3 := hf ⟨0 + m, hm⟩ (by simp)
      refine ⟨by linarith, fun k hk => ?_⟩
      by_cases hkm : k.1 < m
      · linarith [h2 k hkm]
      · obtain rfl : k = ⟨0 + m, hm⟩ := Fin.ext (by simp only; omega)
        linarith
    · rename_i hm
      exact ⟨h1, fun k hk => h2 k (by have := k.2; omega)⟩

/-- The signs of the factors of a matrix with elements at most zero off the diagonal and no negative row sum. -/
theorem signs {A M : Fin n → Fin n → K} (hoff : ∀ r c, r ≠ c → A r c ≤ 0) (hsum : ∀ r, 0 ≤ ∑ c, A r c)
    (hd : ∀ k, M k k ≠ 0) (hfac : Factors A 1 M n)
    (hc : ∀ r c : Fin n, (c < r → M r c = less (A r c) (fun k => M r k * M k c) 0 c.1 / M c c) ∧
      (r ≤ c → M r c = less (A r c) (fun k => M r k * M k c) 0 r.1)) :
    (∀ k, 0 < M k k) ∧ ∀ r c, r ≠ c → M r c ≤ 0 := by
  have hy : ∀ r, ∑ c, A r c = ∑ k, lower M n r k * ∑ c, upper M n k c := by
    intro r
    calc ∑ c, A r c = ∑ c, ∑ k, lower M n r k * upper M n k c := Finset.sum_congr rfl fun c _ => hfac r c
      _ = ∑ k, ∑ c, lower M n r k * upper M n k c := Finset.sum_comm
      _ = _ := Finset.sum_congr rfl fun k _ => (Finset.mul_sum _ _ _).symm
  have key : ∀ (b : Nat) (k : Fin n), k.1 < b → 0 ≤ ∑ c, upper M n k c ∧ 0 < M k k ∧ (∀ c, k < c → M k c ≤ 0) ∧
      ∀ r, k < r → M r k ≤ 0 := by
    intro b
    induction b with
    | zero => exact fun k hk => absurd hk (Nat.not_lt_zero _)
    | succ b ih =>
      intro k hk
      by_cases hkb : k.1 < b
      · exact ih k hkb
      have hlt : ∀ l : Fin n, l < k → l.1 < b := fun l hl => by
        have : l.1 < k.1 := hl
        omega
      have hrow : ∀ c, k < c → M k c ≤ 0 := by
        intro c hkc
        rw [(hc k c).2 hkc.le]
        refine le_trans (less_le fun l hl => ?_).1 (hoff k c hkc.ne)
        have hl : l < k := hl
        obtain ⟨-, -, t3, t4⟩ := ih l (hlt l hl)
        exact mul_nonneg_of_nonpos_of_nonpos (t4 k hl) (t3 c (hl.trans hkc))
      have hyk : 0 ≤ ∑ c, upper M n k c := by
        have e1 := hy k
        have e2 : ∑ l, lower M n k l * ∑ c, upper M n l c ≤ ∑ l, if l = k then ∑ c, upper M n k c else 0 := by
          refine Finset.sum_le_sum fun l _ => ?_
          by_cases hlk : l = k
          · subst hlk
            simp [lower]
          · rw [if_neg hlk, lower, if_neg (Ne.symm hlk)]
            split
            · rename_i hl
              obtain ⟨t1, -, -, t4⟩ := ih l (hlt l hl.2)
              exact mul_nonpos_of_nonpos_of_nonneg (t4 k hl.2) t1
            · simp
        rw [Finset.sum_ite_eq' Finset.univ k, if_pos (Finset.mem_univ _), ← e1] at e2
        exact (hsum k).trans e2
      have hkk : 0 < M k k := by
        refine lt_of_le_of_ne (hyk.trans ?_) (hd k).symm
        have e2 : ∑ c, upper M n k c ≤ ∑ c, if c = k then M k k else 0 := by
          refine Finset.sum_le_sum fun c _ => ?_
          rw [upper, min_eq_left k.2.le]
          split
          · rename_i hck
            rw [if_neg (fun e => by subst e; omega)]
          · rename_i hck
            split
            · rename_i e
              rw [e]
            · rename_i e
              exact hrow c (lt_of_le_of_ne (not_lt.mp hck) (Ne.symm e))
        rwa [Finset.sum_ite_eq' Finset.univ k, if_pos (Finset.mem_univ _)] at e2
      refine ⟨hyk, hkk, hrow, fun r hr => ?_⟩
      rw [(hc r k).1 hr]
      refine div_nonpos_of_nonpos_of_nonneg (le_trans (less_le fun l hl => ?_).1 (hoff r k hr.ne')) hkk.le
      have hl : l < k := hl
      obtain ⟨-, -, t3, t4⟩ := ih l (hlt l hl)
      exact mul_nonneg_of_nonpos_of_nonpos (t4 r (hl.trans hr)) (t3 k hl)
  refine ⟨fun k => (key n k k.2).2.1, fun r c hrc => ?_⟩
  rcases lt_or_gt_of_ne hrc with h | h
  · exact (key n r r.2).2.2.1 c h
  · exact (key n c c.2).2.2.2 r h

/-- C210: exactly, with elements at most zero off the diagonal and no negative row sum, nothing cancels: the elements of the factors off
the diagonal are those with a path. -/
theorem c210_exact (s s' : Lu K) (htol : 0 < s.tol) (A M : Fin n → Fin n → K)
    (hf : factorise (scalars K) false s (mat A) = .ok (s', true)) (hM : s'.lu = mat M) :
    (∀ r c, M r c ≠ 0 → Via A (min r.1 c.1) r c) ∧
    ((∀ r c, r ≠ c → A r c ≤ 0) → (∀ r, 0 ≤ ∑ c, A r c) → ∀ r c, r ≠ c → (M r c ≠ 0 ↔ Via A (min r.1 c.1) r c)) := by
  obtain ⟨p, M', st, ok, e1, e2, -⟩ := factorise_ok false s htol A
  rw [hf] at e1
  simp only [Out.ok.injEq, Prod.mk.injEq] at e1
  obtain ⟨rfl, rfl⟩ := e1
  obtain rfl : M' = M := mat_inj.mp hM
  have hst := e2 rfl
  obtain rfl : p = 1 := (hst.none rfl).2
  have hd : ∀ k, M' k k ≠ 0 := fun k e => by
    have := hst.diag k k.2
    rw [e, abs_zero] at this
    exact absurd htol (not_lt.mpr this)
  have hc := factorise_closed (scalars K) s _ A M' hf rfl
  have hstep : ∀ r c : Fin n, M' r c ≠ 0 → A r c ≠ 0 ∨ ∃ k, k < r ∧ k < c ∧ M' r k ≠ 0 ∧ M' k c ≠ 0 := fun r c h =>
    fill_step (sub_zero 0) (fun c => zero_div _) (fun r k c h => mul_eq_zero.mpr h) hc h
  refine ⟨fun r c => fill_via hstep, fun hoff hsum r c hrc => ⟨fill_via hstep, via_fill (fun r c hrc hx => ?_) hrc⟩⟩
  obtain ⟨hpos, hneg⟩ := signs hoff hsum hd hst.factors hc
  have hl : ∀ m, m ≤ min r.1 c.1 → (min r.1 c.1 ≤ m) → less (A r c) (fun k => M' r k * M' k c) 0 m < 0 := by
    intro m hm hm'
    have hnn : ∀ k : Fin n, k.1 < m → 0 ≤ M' r k * M' k c := fun k hk =>
      mul_nonneg_of_nonpos_of_nonpos (hneg r k (fun e => by subst e; omega)) (hneg k c (fun e => by subst e; omega))
    obtain ⟨t1, t2⟩ := less_le (v := A r c) hnn
    rcases hx with h1 | ⟨k, h1, h2, h3, h4⟩
    · exact lt_of_le_of_lt t1 (lt_of_le_of_ne (hoff r c hrc) h1)
    · have h1' : k.1 < r.1 := h1
      have h2' : k.1 < c.1 := h2
      have h5 := t2 k (by omega)
      have h6 := mul_pos_of_neg_of_neg (lt_of_le_of_ne (hneg r k h1.ne') h3) (lt_of_le_of_ne (hneg k c h2.ne) h4)
      have h7 := hoff r c hrc
      linarith
  rcases lt_or_gt_of_ne hrc with h | h
  · have h' : r.1 < c.1 := h
    rw [(hc r c).2 h.le]
    exact (hl _ (by omega) (by omega)).ne
  · have h' : c.1 < r.1 := h
    rw [(hc r c).1 h]
    exact (div_neg_of_neg_of_pos (hl _ (by omega) (by omega)) (hpos c)).ne

end exact

/-- A ring of four vertices. -/
def ringFour : Graph := ⟨[1, 3, 0, 2, 1, 3, 0, 2], [0, 2, 4, 6, 8]⟩

theorem ringFour_reachable : Reachable false ringFour :=
  ⟨[.insert (0, 1), .insert (1, 2), .insert (2, 3), .insert (0, 3)], by simp [Op.Valid, sizeMax], by decide⟩

/-- A matrix along the ring: the path from 1 to 3 by way of 0 fills two elements, no path fills the elements between 0 and 2. -/
def ringMatrix (r c : Fin 4) : ℚ :=
  ([[2, -1, 0, -1], [-1, 5 / 2, -1, 0], [0, -1, 5 / 2, -1], [-1, 0, -1, 3]].getD r.1 []).getD c.1 0

def ringFactors (r c : Fin 4) : ℚ :=
  ([[2, -1, 0, -1], [-1 / 2, 2, -1, -1 / 2], [0, -1 / 2, 2, -5 / 4], [-1 / 2, -1 / 4, -5 / 8, 51 / 32]].getD r.1 []).getD c.1 0

theorem ringMatrix_along : Along ringFour (n := ringFour.sizeVertex) ringMatrix := by
  have h : ∀ r c : Fin 4, r = c ∨ ringMatrix r c = 0 ∨ ∃ l ∈ [[1, 3], [0, 2]], ringFour.nbrs r = .ok l ∧ c.1 ∈ l := by decide +kernel
  intro r c hrc hadj
  rcases h r c with h | h | ⟨l, -, h1, h2⟩
  · exact absurd h hrc
  · exact h
  · exact absurd ⟨l, h1, h2⟩ hadj

example : ∃ s', factorise (Num.arith binary64) false freshDouble (mat fun r c => (fin (ringMatrix r c) : Num binary64)) = .ok (s', true) ∧
    s'.lu = mat (fun r c => (fin (ringFactors r c) : Num binary64)) ∧ ringMatrix 1 3 = 0 ∧ ringFactors 1 3 ≠ 0 ∧ ringFactors 0 2 = 0 ∧
    Via ringMatrix 1 1 3 :=
  ⟨⟨true, freshDouble.tol, mat (fun r c => (fin (ringFactors r c) : Num binary64)), []⟩, by decide +kernel, rfl, by decide +kernel,
    by decide +kernel, by decide +kernel, .step (v := 0) (by decide +kernel) (by decide) (.one (by decide +kernel))⟩

/-- The same in exact arithmetic, with the signs of the second part. -/
example : (∃ s', factorise (scalars ℚ) false ⟨false, 1 / 2 ^ 46, [], []⟩ (mat ringMatrix) = .ok (s', true) ∧ s'.lu = mat ringFactors) ∧
    (∀ r c, r ≠ c → ringMatrix r c ≤ 0) ∧ ∀ r, 0 ≤ ∑ c, ringMatrix r c :=
  ⟨⟨⟨true, 1 / 2 ^ 46, mat ringFactors, []⟩, by decide +kernel, rfl⟩, by decide +kernel, by decide +kernel⟩

/-- Without the signs elements cancel: there is a path from 2 to 1 by way of 0, and the element is zero. -/
example : ∃ s', factorise (scalars ℚ) false ⟨false, 1 / 2 ^ 46, [], []⟩ [[1, 1, 0], [1, 2, 1], [1, 1, 1]] = .ok (s', true) ∧
    s'.lu = [[1, 1, 0], [1, 1, 1], [1, 0, 1]] :=
  ⟨⟨true, 1 / 2 ^ 46, [[1, 1, 0], [1, 1, 1], [1, 0, 1]], []⟩, by decide +kernel, rfl⟩

/-- The hypotheses on trees hold for a vertex with three branches, and the one on later neighbours for a triangle. -/
example : Reachable false branches ∧ Tree branches ∧ 2 < branches.sizeVertex ∧
    DegreeSort (List.insertionSort fun a b => a.2 ≤ b.2) :=
  ⟨branches_reachable, branches_tree, by decide, insertionSort_degreeSort⟩

example : Reachable false triangle ∧ LaterJoined triangle := by
  refine ⟨triangle_reachable, fun k i j _ _ hij h1 h2 => ?_⟩
  have h : ∀ i j : Fin 3, i = j ∨ ∃ l ∈ [[1, 2], [0, 2], [0, 1]], triangle.nbrs i = .ok l ∧ j.1 ∈ l := by decide +kernel
  rcases h ⟨i, (adj_lt triangle_reachable h1).2⟩ ⟨j, (adj_lt triangle_reachable h2).2⟩ with h | ⟨l, -, h3, h4⟩
  · exact absurd (congrArg Fin.val h) hij
  · exact ⟨l, h3, h4⟩

end Disa.Props
