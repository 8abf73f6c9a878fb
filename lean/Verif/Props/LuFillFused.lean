import Verif.Props.LuBandFused
import Verif.Props.LuFill

/-!
# Property C235: fill-in of the direct solver with fused operations follows paths through unknowns that come before
-/

namespace Disa.Props

open Disa Spec Dense Num Lu Fused

variable {fuse : Hist → Hist → Hist → Bool} {n : Nat}

theorem pivots_fused {s s' : Lu (Fused binary64 fuse)} {t : ℚ} (ht : 0 < t) (hs : s.tol.get = .fin t)
    {A : Fin n → Fin n → Fused binary64 fuse} (hf : factorise (Fused.arith binary64 fuse) false s (mat A) = .ok (s', true))
    {N : Fin n → Fin n → Fused binary64 fuse} (hN : s'.lu = mat N) {M : Fin n → Fin n → ℚ} (hM : ∀ r c, (N r c).get = .fin (M r c))
    (k : Fin n) : M k k ≠ 0 := by
  obtain ⟨p, N', st, ok, e1, e2⟩ := factorise_fused rounds_binary64 (by norm_num) false s ht hs A
  rw [hf] at e1
  simp only [Out.ok.injEq, Prod.mk.injEq] at e1
  obtain ⟨rfl, rfl⟩ := e1
  obtain rfl : N' = N := mat_inj.mp hN
  rw [← (isFin_of (hM k k)).2]
  exact ne_zero_of_acceptedF ht hs ((e2 rfl).diag k k.2) (isFin_of (hM k k)).1

/-- An element of the factors that is not zero comes from the matrix or from two other elements. -/
theorem fill_fused {s s' : Lu (Fused binary64 fuse)} {t : ℚ} (ht : 0 < t) (hs : s.tol.get = .fin t)
    {A : Fin n → Fin n → Fused binary64 fuse} {B : Fin n → Fin n → ℚ} (hA : ∀ r c, (A r c).get = .fin (B r c))
    (hf : factorise (Fused.arith binary64 fuse) false s (mat A) = .ok (s', true))
    {N : Fin n → Fin n → Fused binary64 fuse} (hN : s'.lu = mat N) {M : Fin n → Fin n → ℚ} (hM : ∀ r c, (N r c).get = .fin (M r c))
    (r c : Fin n) (h : M r c ≠ 0) : B r c ≠ 0 ∨ ∃ k, k < r ∧ k < c ∧ M r k ≠ 0 ∧ M k c ≠ 0 := by
  by_contra hx
  push Not at hx
  obtain ⟨h1, h2⟩ := hx
  have hNf : ∀ r c, (N r c).IsFin := fun r c => (isFin_of (hM r c)).1
  have h3 : ∀ k, k < r → k < c → ZeroTerm (N r k) (N k c) := fun k hkr hkc => by
    by_cases hk : M r k = 0
    · exact .inl ⟨by rw [hM, hk], hNf _ _⟩
    · exact .inr ⟨hNf _ _, by rw [hM, h2 k hkr hkc hk]⟩
  have hz := hA r c
  rw [h1] at hz
  have hv : IsDouble (A r c).get := ⟨0, hz, binary64_zero⟩
  have hc := factorise_closed (Fused.arith binary64 fuse) s s' A N hf hN
  apply h
  rcases lt_or_ge c r with hrc | hrc
  · have h4 := less_leadF hv (f := fun k => N r k) (g := fun k => N k c) (a := c.1) fun k hk => h3 k (lt_trans (show k < c from hk) hrc) hk
    have h5 := congrArg Fused.get ((hc r c).1 hrc)
    rw [hM] at h5
    have h6 : (less (A r c) (fun k => N r k * N k c) 0 c.1 / N c c).get = Fl.div binary64 (.fin 0) (.fin (M c c)) := by
      rw [← hM c c, ← hz, ← h4]
      rfl
    rw [h6] at h5
    exact fin_inj.mp (h5.trans (zero_div64 (pivots_fused ht hs hf hN hM c)))
  · have h4 := less_leadF hv (f := fun k => N r k) (g := fun k => N k c) (a := r.1) fun k hk =>
      h3 k hk (lt_of_lt_of_le (show k < r from hk) hrc)
    rw [← (hc r c).2 hrc, hM, hz] at h4
    exact (Fl.fin.injEq _ _).mp h4

/-- C235: without pivoting and whichever products are fused, an element of the factors is zero unless a path of elements of the matrix
leads from its row to its column by way of unknowns before both. -/
theorem c235_paths (s s' : Lu (Fused binary64 fuse)) {t : ℚ} (ht : 0 < t) (hs : s.tol.get = .fin t)
    (A : Fin n → Fin n → Fused binary64 fuse) (B : Fin n → Fin n → ℚ) (hA : ∀ r c, (A r c).get = .fin (B r c))
    (hf : factorise (Fused.arith binary64 fuse) false s (mat A) = .ok (s', true)) (N : Fin n → Fin n → Fused binary64 fuse)
    (hN : s'.lu = mat N) (M : Fin n → Fin n → ℚ) (hM : ∀ r c, (N r c).get = .fin (M r c)) (r c : Fin n) (h : M r c ≠ 0) :
    Via B (min r.1 c.1) r c :=
  fill_via (fill_fused ht hs hA hf hN hM) h

/-- C235: for a matrix along the edges of a graph the factors stay in the profile. -/
theorem c235_profile (g : Graph) (h : Reachable false g) (s s' : Lu (Fused binary64 fuse)) {t : ℚ} (ht : 0 < t) (hs : s.tol.get = .fin t)
    (A : Fin g.sizeVertex → Fin g.sizeVertex → Fused binary64 fuse) (B : Fin g.sizeVertex → Fin g.sizeVertex → ℚ)
    (hA : ∀ r c, (A r c).get = .fin (B r c)) (hB : Along g B)
    (hf : factorise (Fused.arith binary64 fuse) false s (mat A) = .ok (s', true))
    (N : Fin g.sizeVertex → Fin g.sizeVertex → Fused binary64 fuse) (hN : s'.lu = mat N)
    (M : Fin g.sizeVertex → Fin g.sizeVertex → ℚ) (hM : ∀ r c, (N r c).get = .fin (M r c)) :
    (∀ r c, M r c ≠ 0 → (c < r → InProfile g r c) ∧ (r < c → InProfile g c r)) ∧
    Set.ncard {x : Fin g.sizeVertex × Fin g.sizeVertex | x.2 < x.1 ∧ M x.1 x.2 ≠ 0} ≤ profile g ∧
    Set.ncard {x : Fin g.sizeVertex × Fin g.sizeVertex | x.1 < x.2 ∧ M x.1 x.2 ≠ 0} ≤ profile g :=
  have key := fun r c h0 => via_profile h hB (c235_paths s s' ht hs A B hA hf N hN M hM r c h0)
  ⟨key, count_profile h key⟩

/-- C235: if the later neighbours of every vertex are neighbours of each other, there is no fill-in at all. -/
theorem c235_no_fill (g : Graph) (h : Reachable false g) (hj : LaterJoined g) (s s' : Lu (Fused binary64 fuse)) {t : ℚ} (ht : 0 < t)
    (hs : s.tol.get = .fin t) (A : Fin g.sizeVertex → Fin g.sizeVertex → Fused binary64 fuse)
    (B : Fin g.sizeVertex → Fin g.sizeVertex → ℚ) (hA : ∀ r c, (A r c).get = .fin (B r c)) (hB : Along g B)
    (hf : factorise (Fused.arith binary64 fuse) false s (mat A) = .ok (s', true))
    (N : Fin g.sizeVertex → Fin g.sizeVertex → Fused binary64 fuse) (hN : s'.lu = mat N)
    (M : Fin g.sizeVertex → Fin g.sizeVertex → ℚ) (hM : ∀ r c, (N r c).get = .fin (M r c)) : Along g M :=
  fun r c hrc hadj => by
    by_contra h0
    exact hadj (joined_no_fill h hB hj (fill_fused ht hs hA hf hN hM) hrc h0)

/-- C235: so for a tree of any shape after `cuthill_mckee_reverse`. -/
theorem c235_tree (sort : List (Nat × Nat) → List (Nat × Nat)) (hsort : DegreeSort sort) (g : Graph) (h : Reachable false g)
    (ht : Tree g) (root : Nat) (hroot : root < g.sizeVertex ∨ root = sizeMax ∧ 1 < g.sizeVertex) (s : Lu (Fused binary64 fuse)) {t : ℚ}
    (h0 : 0 < t) (hs : s.tol.get = .fin t) :
    ∃ q g', g.cuthillMckeeReverse sort root = .ok q ∧ g.reorder q = .ok (g', g) ∧
      ∀ (A : Fin g'.sizeVertex → Fin g'.sizeVertex → Fused binary64 fuse) (B : Fin g'.sizeVertex → Fin g'.sizeVertex → ℚ),
        (∀ r c, (A r c).get = .fin (B r c)) → Along g' B → ∀ s',
        factorise (Fused.arith binary64 fuse) false s (mat A) = .ok (s', true) →
        ∀ (N : Fin g'.sizeVertex → Fin g'.sizeVertex → Fused binary64 fuse) (M : Fin g'.sizeVertex → Fin g'.sizeVertex → ℚ),
        s'.lu = mat N → (∀ r c, (N r c).get = .fin (M r c)) → Along g' M := by
  obtain ⟨p, -, q, g', hp, -, -, h1, h2, h3⟩ := c193_cuthill_mckee sort hsort g h ht root hroot
  have h4 : Reachable false g' := by
    obtain ⟨q', k1, k2, -⟩ := (c20_reverse sort hsort g h root).1 p hp
    obtain rfl : q' = q := Out.ok.inj (k1.symm.trans h1)
    obtain ⟨g1, m1, m2, -⟩ := reorder_spec h k2
    obtain rfl : g1 = g' := congrArg Prod.fst (Out.ok.inj (m1.symm.trans h2))
    exact m2
  exact ⟨q, g', h1, h2, fun A B hA hB s' hf N M hN hM =>
    c235_no_fill g' h4 (after_joined h4 h3) s s' h0 hs A B hA hB hf N hN M hM⟩

/-- The hypotheses hold: a star whose centre comes first fills the matrix, with rounded elements. -/
example : (factorise (Fused.arith binary64 fun _ _ _ => true) false ⟨false, (Fused.arith binary64 _).tol, [], []⟩
        [[inp 0 3, inp 1 1, inp 2 1], [inp 3 1, inp 4 3, inp 5 0], [inp 6 1, inp 7 0, inp 8 3]] >>= fun r =>
      pure (r.1.lu.map fun l => l.map Fused.get, r.2)) =
    .ok ([[.fin 3, .fin 1, .fin 1], [.fin (6004799503160661 / 2 ^ 54), .fin (6004799503160661 / 2 ^ 51), .fin (-6004799503160661 / 2 ^ 54)],
      [.fin (6004799503160661 / 2 ^ 54), .fin (-1 / 8), .fin (21 / 8)]], true) := by
  decide +kernel

/-- A star whose centre comes last fills nothing. -/
example : (factorise (Fused.arith binary64 fun _ _ _ => true) false ⟨false, (Fused.arith binary64 _).tol, [], []⟩
        [[inp 0 3, inp 1 0, inp 2 1], [inp 3 0, inp 4 3, inp 5 1], [inp 6 1, inp 7 1, inp 8 3]] >>= fun r =>
      pure (r.1.lu.map fun l => l.map Fused.get, r.2)) =
    .ok ([[.fin 3, .fin 0, .fin 1], [.fin 0, .fin 3, .fin 1],
      [.fin (6004799503160661 / 2 ^ 54), .fin (6004799503160661 / 2 ^ 54), .fin (2627099782632789 / 2 ^ 50)]], true) := by
  decide +kernel

/-- The hypotheses on trees hold for a vertex with three branches, and the direct solver's own tolerance is positive. -/
example : Reachable false branches ∧ Tree branches ∧ 2 < branches.sizeVertex ∧ DegreeSort (List.insertionSort fun a b => a.2 ≤ b.2) ∧
    (Fused.arith binary64 fuse).tol.get = .fin (64 * (1 / 2 ^ 52)) :=
  ⟨branches_reachable, branches_tree, by decide, insertionSort_degreeSort, rfl⟩

end Disa.Props
