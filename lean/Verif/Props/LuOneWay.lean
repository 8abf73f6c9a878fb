import Verif.Props.LuParts

/-!
# Property C201: without pivoting, the direct solver respects a coupling in one direction only
-/

namespace Disa.Props

open Disa Spec Dense Num Lu

/-! ### Elimination -/

/-- The chosen equations do not have the other unknowns (`rows`), or the other equations do not have the chosen unknowns; `M'` has
the elements of the chosen equations and unknowns. -/
structure Aside {m n : Nat} (rows : Bool) (e : Fin m → Fin n) (M : Fin n → Fin n → Num binary64)
    (M' : Fin m → Fin m → Num binary64) : Prop where
  same : ∀ a b, M (e a) (e b) = M' a b
  row : rows = true → ∀ a c, (∀ k, e k ≠ c) → M (e a) c = fin 0
  column : rows = false → ∀ a r, (∀ k, e k ≠ r) → M r (e a) = fin 0
  double : ∀ r c, IsDouble (M r c)

section

variable {m n : Nat} {rows : Bool} {e : Fin m → Fin n} {M : Fin n → Fin n → Num binary64} {M' : Fin m → Fin m → Num binary64}

theorem double_elim (h : ∀ r c, IsDouble (M r c)) (i : Fin n) {d : ℚ} (hi : M i i = fin d) (hd : d ≠ 0)
    (hf : ∀ r c, IsFin (elim M i r c)) (r c : Fin n) : IsDouble (elim M i r c) := by
  by_cases hr : i < r
  · rcases lt_trichotomy c i with hc | rfl | hc
    · rw [elim_same M (.inr hc)]
      exact h r c
    · obtain ⟨q, hq⟩ := hf r c
      have hq' := hq
      rw [elim_at M _ hr, hi] at hq'
      obtain ⟨x, -, hx⟩ := div_fin hd hq'
      exact ⟨q, hq, binary64_idem hx⟩
    · have := hf r c
      rw [elim_past M i hr hc] at this ⊢
      exact double_sub this
  · rw [elim_same M (.inl (not_lt.mp hr))]
    exact h r c

/-- An element that is zero stays zero if one of the two factors of the update is zero. -/
theorem elim_zero (h : ∀ r c, IsDouble (M r c)) (i : Fin n) {d : ℚ} (hi : M i i = fin d) (hd : d ≠ 0)
    (hf : ∀ r c, IsFin (elim M i r c)) {r c : Fin n} (hz : M r c = fin 0)
    (hu : M r i = fin 0 ∨ M i c = fin 0) : elim M i r c = fin 0 := by
  by_cases hr : i < r
  · have hl : IsFin (M r i / M i i) := by
      rw [← elim_at M i hr]
      exact hf r i
    rcases lt_trichotomy c i with hc | rfl | hc
    · rw [elim_same M (.inr hc), hz]
    · rw [elim_at M _ hr, hz, hi, zero_div64 hd]
    · rw [elim_past M i hr hc, hz]
      rcases hu with hu | hu
      · rw [hu, hi, zero_div64 hd, fin_zero_times (h i c).isFin, double_zero.less_zero]
      · rw [hu, times_fin_zero hl, double_zero.less_zero]
  · rw [elim_same M (.inl (not_lt.mp hr)), hz]

theorem aside_zeros (h : Aside rows e M M') (i : Fin n) {d : ℚ} (hi : M i i = fin d) (hd : d ≠ 0)
    (hf : ∀ r c, IsFin (elim M i r c)) :
    (rows = true → ∀ a c, (∀ k, e k ≠ c) → elim M i (e a) c = fin 0) ∧
      (rows = false → ∀ a r, (∀ k, e k ≠ r) → elim M i r (e a) = fin 0) := by
  constructor
  · intro hr a c hc
    refine elim_zero h.double i hi hd hf (h.row hr a c hc) ?_
    by_cases hk : ∃ k, e k = i
    · obtain ⟨k, rfl⟩ := hk
      exact .inr (h.row hr k c hc)
    · push Not at hk
      exact .inl (h.row hr a i hk)
  · intro hr a r hc
    refine elim_zero h.double i hi hd hf (h.column hr a r hc) ?_
    by_cases hk : ∃ k, e k = i
    · obtain ⟨k, rfl⟩ := hk
      exact .inl (h.column hr k r hc)
    · push Not at hk
      exact .inr (h.column hr a i hk)

theorem aside_elim_in (he : StrictMono e) (h : Aside rows e M M') (k : Fin m) {d : ℚ} (hi : M (e k) (e k) = fin d) (hd : d ≠ 0)
    (hf : ∀ r c, IsFin (elim M (e k) r c)) : Aside rows e (elim M (e k)) (elim M' k) := by
  obtain ⟨h1, h2⟩ := aside_zeros h (e k) hi hd hf
  refine ⟨fun a b => ?_, h1, h2, double_elim h.double (e k) hi hd hf⟩
  unfold elim
  simp only [he.lt_iff_lt, he.injective.eq_iff, h.same]

theorem aside_elim_out (h : Aside rows e M M') (i : Fin n) (ho : ∀ k, e k ≠ i) {d : ℚ} (hi : M i i = fin d) (hd : d ≠ 0)
    (hf : ∀ r c, IsFin (elim M i r c)) : Aside rows e (elim M i) M' := by
  obtain ⟨h1, h2⟩ := aside_zeros h i hi hd hf
  refine ⟨fun a b => ?_, h1, h2, double_elim h.double i hi hd hf⟩
  by_cases hr : i < e a
  · rcases lt_trichotomy (e b) i with hc | hc | hc
    · rw [elim_same M (.inr hc), h.same]
    · exact absurd hc (ho b)
    · have hl : IsFin (M (e a) i / M i i) := by
        rw [← elim_at M i hr]
        exact hf (e a) i
      rw [elim_past M i hr hc]
      cases rows with
      | true => rw [h.row rfl a i ho, hi, zero_div64 hd, fin_zero_times (h.double i _).isFin, (h.double _ _).less_zero, h.same]
      | false => rw [h.column rfl b i ho, times_fin_zero hl, (h.double _ _).less_zero, h.same]
  · rw [elim_same M (.inl (not_lt.mp hr)), h.same]

/-! ### Factors -/

/-- The pivot is rejected. -/
def Small (tol a : Num binary64) : Prop := (Num.arith binary64).lt ((Num.arith binary64).abs a) tol = true

theorem body_rejects {N : Fin n → Fin n → Num binary64} {tol : Num binary64} {st : List Nat} (i : Fin n) (h : Small tol (N i i)) :
    factoriseBody (Num.arith binary64) false tol i.1 (mat N, st, true) = .ok (mat N, st, false) := by
  unfold factoriseBody
  simp only [if_true, Bool.false_eq_true, if_false, Out.pure_eq, Out.ok_bind, rd2_mat N i.2 i.2]
  exact if_pos h

/-- Without pivoting, the part takes the steps of the whole matrix, and is rejected exactly if the first pivot of the whole that
is too small is one of its own. -/
theorem factorise_aside (he : StrictMono e) (s u s' : Lu (Num binary64)) {t : ℚ} (ht : 0 < t) (hs : s.tol = fin t)
    (hu : u.tol = s.tol) (A : Fin n → Fin n → Num binary64) (A' : Fin m → Fin m → Num binary64) (hA : Aside rows e A A') {ok : Bool}
    (hf : factorise (Num.arith binary64) false s (mat A) = .ok (s', ok)) (M : Fin n → Fin n → Num binary64)
    (hM : s'.lu = mat M) (hfin : ∀ r c, IsFin (M r c)) :
    (ok = true → ∃ M' : Fin m → Fin m → Num binary64,
      factorise (Num.arith binary64) false u (mat A') = .ok ({ u with factorised := true, lu := mat M' }, true) ∧
      Aside rows e M M' ∧ ∀ r, ¬ Small s.tol (M r r) ∧ ∃ d, M r r = fin d ∧ d ≠ 0) ∧
    (ok = false → ∃ i : Fin n, Small s.tol (M i i) ∧ (∀ r < i, ¬ Small s.tol (M r r)) ∧
      ((∃ k, e k = i) → ∃ M' : Fin m → Fin m → Num binary64,
        factorise (Num.arith binary64) false u (mat A') = .ok ({ u with factorised := false, lu := mat M' }, false))) := by
  obtain ⟨_, h2, N, ok', rfl, h3⟩ := loop_inv (n := n) (body := factoriseBody (Num.arith binary64) false s.tol)
    (s := (mat A, s.piv, true))
    (fun i x => ∃ (N : Fin n → Fin n → Num binary64) (ok : Bool), x = (mat N, s.piv, ok) ∧ ((∀ r c, IsFin (N r c)) →
      (ok = true → ∃ M' : Fin m → Fin m → Num binary64,
        loop (before e i) (factoriseBody (Num.arith binary64) false u.tol) (mat A', u.piv, true) = .ok (mat M', u.piv, true) ∧
        Aside rows e N M' ∧ ∀ r : Fin n, r.1 < i → ¬ Small s.tol (N r r) ∧ ∃ d, N r r = fin d ∧ d ≠ 0) ∧
      (ok = false → ∃ i0 : Fin n, i0.1 < i ∧ Small s.tol (N i0 i0) ∧ (∀ r < i0, ¬ Small s.tol (N r r)) ∧
        ((∃ k, e k = i0) → ∃ M' : Fin m → Fin m → Num binary64,
          loop (before e i) (factoriseBody (Num.arith binary64) false u.tol) (mat A', u.piv, true) =
            .ok (mat M', u.piv, false)))))
    ⟨A, true, rfl, fun _ => ⟨fun _ => ⟨A', by rw [before_zero]; rfl, hA, fun r hr => absurd hr (Nat.not_lt_zero _)⟩, by simp⟩⟩ (by
      rintro i x hi ⟨N, ok, rfl, h3⟩
      cases ok with
      | false =>
        refine ⟨_, rfl, N, false, rfl, fun hN => ⟨by simp, fun _ => ?_⟩⟩
        obtain ⟨i0, a1, a2, a3, a4⟩ := (h3 hN).2 rfl
        refine ⟨i0, by omega, a2, a3, fun hk => ?_⟩
        obtain ⟨M', h4⟩ := a4 hk
        refine ⟨M', ?_⟩
        by_cases hk : ∃ k, e k = ⟨i, hi⟩
        · obtain ⟨k, hk⟩ := hk
          have hki : (e k).1 = i := by rw [hk]
          rw [← hki, before_after he, loop]
          rw [← hki, before_at he] at h4
          rw [h4]
          rfl
        · push Not at hk
          rw [before_other (j := i) fun k hk' => hk k (Fin.ext hk')]
          exact h4
      | true =>
        by_cases hsmall : Small s.tol (N ⟨i, hi⟩ ⟨i, hi⟩)
        · refine ⟨_, body_rejects ⟨i, hi⟩ hsmall, N, false, rfl, fun hN => ⟨by simp, fun _ => ?_⟩⟩
          obtain ⟨M', k1, k2, k3⟩ := (h3 hN).1 rfl
          refine ⟨⟨i, hi⟩, Nat.lt_succ_self i, hsmall, fun r hr => (k3 r hr).1, ?_⟩
          rintro ⟨k, hk⟩
          have hki : (e k).1 = i := by rw [hk]
          refine ⟨M', ?_⟩
          rw [← hki, before_after he, loop]
          rw [← hki, before_at he] at k1
          rw [k1, Out.ok_bind]
          refine body_rejects k ?_
          rw [← k2.same, hk, hu]
          exact hsmall
        · have hsm : (Num.arith binary64).lt ((Num.arith binary64).abs (N ⟨i, hi⟩ ⟨i, hi⟩)) s.tol = false := by
            simpa [Small] using hsmall
          refine ⟨_, body_ok (st1 := s.piv) ⟨i, hi⟩ rfl hsm, _, true, rfl, fun hN2 => ⟨fun _ => ?_, by simp⟩⟩
          obtain ⟨d, hd⟩ : IsFin (N ⟨i, hi⟩ ⟨i, hi⟩) := by
            have := hN2 ⟨i, hi⟩ ⟨i, hi⟩
            rwa [elim_same N (.inl le_rfl)] at this
          have hd0 : d ≠ 0 := by
            have h5 := hsm
            rw [hs] at h5
            have := ne_zero_of_accepted ht h5
            rw [hd] at this
            exact this rfl
          obtain ⟨M', k1, k2, k3⟩ := (h3 (finite_before hd hd0 hN2)).1 rfl
          have hdiag : ∀ r : Fin n, r.1 < i + 1 →
              ¬ Small s.tol (elim N ⟨i, hi⟩ r r) ∧ ∃ d, elim N ⟨i, hi⟩ r r = fin d ∧ d ≠ 0 := by
            intro r hr
            rw [elim_same N (.inl (show r.1 ≤ i by omega))]
            by_cases hri : r.1 < i
            · exact k3 r hri
            · obtain rfl : r = ⟨i, hi⟩ := Fin.ext (by show r.1 = i; omega)
              exact ⟨hsmall, d, hd, hd0⟩
          by_cases hk : ∃ k, e k = ⟨i, hi⟩
          · obtain ⟨k, hk⟩ := hk
            have hki : (e k).1 = i := by rw [hk]
            refine ⟨elim M' k, ?_, ?_, hdiag⟩
            · rw [← hki, before_after he, loop]
              rw [← hki, before_at he] at k1
              rw [k1, Out.ok_bind]
              exact body_ok k rfl (by rw [← k2.same, hk, hu]; exact hsm)
            · rw [← hk] at hN2 hd ⊢
              exact aside_elim_in he k2 k hd hd0 hN2
          · push Not at hk
            refine ⟨M', ?_, aside_elim_out k2 ⟨i, hi⟩ hk hd hd0 hN2, hdiag⟩
            rw [before_other (j := i) fun k hk' => hk k (Fin.ext hk')]
            exact k1)
  unfold factorise at hf
  simp only [Bool.false_eq_true, if_false] at hf
  rw [mat_length, h2, Out.ok_bind] at hf
  simp only [Out.pure_eq, Out.ok.injEq, Prod.mk.injEq] at hf
  obtain ⟨rfl, rfl⟩ := hf
  obtain rfl := mat_inj.mp hM
  obtain ⟨g1, g2⟩ := h3 hfin
  refine ⟨fun h => ?_, fun h => ?_⟩
  · obtain ⟨M', k1, k2, k3⟩ := g1 h
    refine ⟨M', ?_, k2, fun r => k3 r r.2⟩
    unfold factorise
    simp only [Bool.false_eq_true, if_false]
    rw [before_all] at k1
    rw [mat_length, k1]
    rfl
  · obtain ⟨i0, -, k1, k2, k3⟩ := g2 h
    refine ⟨i0, k1, k2, fun hk => ?_⟩
    obtain ⟨M', k4⟩ := k3 hk
    refine ⟨M', ?_⟩
    unfold factorise
    simp only [Bool.false_eq_true, if_false]
    rw [before_all] at k4
    rw [mat_length, k4]
    rfl

end

/-! ### The property -/

/-- C201, acceptance: if the equations `e` do not have the unknowns of the other equations `f`, then the matrix is accepted without
pivoting exactly if both diagonal parts are. -/
theorem c201_accepted {m l n : Nat} {e : Fin m → Fin n} {f : Fin l → Fin n} (he : StrictMono e) (hf : StrictMono f)
    (hcov : ∀ r, (∃ k, e k = r) ∨ ∃ k, f k = r) (s s' u v u' v' : Lu (Num binary64)) {t : ℚ}
    (ht : 0 < t) (hs : s.tol = fin t) (hu : u.tol = s.tol) (hv : v.tol = s.tol) (B : Fin n → Fin n → ℚ)
    (hB : ∀ r c, binary64 (B r c) = .fin (B r c)) (h0 : ∀ a b, B (e a) (f b) = 0) {ok ok1 ok2 : Bool}
    (hw : factorise (Num.arith binary64) false s (mat fun r c => (fin (B r c) : Num binary64)) = .ok (s', ok))
    (M : Fin n → Fin n → ℚ) (hM : s'.lu = mat fun r c => (fin (M r c) : Num binary64))
    (h1 : factorise (Num.arith binary64) false u (mat fun a b => (fin (B (e a) (e b)) : Num binary64)) = .ok (u', ok1))
    (h2 : factorise (Num.arith binary64) false v (mat fun a b => (fin (B (f a) (f b)) : Num binary64)) = .ok (v', ok2)) :
    ok = (ok1 && ok2) := by
  have hA : Aside true e (fun r c => (fin (B r c) : Num binary64)) (fun a b => fin (B (e a) (e b))) := by
    refine ⟨fun a b => rfl, fun _ a c hc => ?_, by simp, fun r c => ⟨_, rfl, hB r c⟩⟩
    rcases hcov c with ⟨k, hk⟩ | ⟨k, rfl⟩
    · exact absurd hk (hc k)
    · rw [h0]
  have hC : Aside false f (fun r c => (fin (B r c) : Num binary64)) (fun a b => fin (B (f a) (f b))) := by
    refine ⟨fun a b => rfl, by simp, fun _ a r hc => ?_, fun r c => ⟨_, rfl, hB r c⟩⟩
    rcases hcov r with ⟨k, rfl⟩ | ⟨k, hk⟩
    · rw [h0]
    · exact absurd hk (hc k)
  obtain ⟨a1, a2⟩ := factorise_aside he s u s' ht hs hu _ _ hA hw _ hM fun r c => ⟨_, rfl⟩
  obtain ⟨b1, b2⟩ := factorise_aside hf s v s' ht hs hv _ _ hC hw _ hM fun r c => ⟨_, rfl⟩
  cases ok with
  | true =>
    obtain ⟨_, a3, -⟩ := a1 rfl
    obtain ⟨_, b3, -⟩ := b1 rfl
    rw [h1, Out.ok.injEq, Prod.mk.injEq] at a3
    rw [h2, Out.ok.injEq, Prod.mk.injEq] at b3
    rw [a3.2, b3.2]
    rfl
  | false =>
    obtain ⟨i, i1, i2, i3⟩ := a2 rfl
    obtain ⟨j, j1, j2, j3⟩ := b2 rfl
    obtain rfl : i = j := by
      rcases lt_trichotomy i j with h | h | h
      · exact absurd i1 (j2 i h)
      · exact h
      · exact absurd j1 (i2 j h)
    rcases hcov i with hk | hk
    · obtain ⟨_, a3⟩ := i3 hk
      rw [h1, Out.ok.injEq, Prod.mk.injEq] at a3
      rw [a3.2]
      rfl
    · obtain ⟨_, b3⟩ := j3 hk
      rw [h2, Out.ok.injEq, Prod.mk.injEq] at b3
      rw [b3.2, Bool.and_false]

/-- C201, solution: equations that do not have the other unknowns are accepted alone, and have alone the solution that they have in
the whole, to the last bit. -/
theorem c201_solution {m n : Nat} {e : Fin m → Fin n} (he : StrictMono e) (s s' u : Lu (Num binary64)) {t : ℚ}
    (ht : 0 < t) (hs : s.tol = fin t) (hu : u.tol = s.tol) (B : Fin n → Fin n → ℚ)
    (hB : ∀ r c, binary64 (B r c) = .fin (B r c)) (h0 : ∀ k c, (∀ l, e l ≠ c) → B (e k) c = 0)
    (hf : factorise (Num.arith binary64) false s (mat fun r c => (fin (B r c) : Num binary64)) = .ok (s', true))
    (M : Fin n → Fin n → ℚ) (hM : s'.lu = mat fun r c => (fin (M r c) : Num binary64)) :
    ∃ u' : Lu (Num binary64),
      factorise (Num.arith binary64) false u (mat fun a b => (fin (B (e a) (e b)) : Num binary64)) = .ok (u', true) ∧
      ∀ (b x : Fin n → ℚ) (z z' : List (Num binary64)), (∀ r, binary64 (b r) = .fin (b r)) →
        Lu.solve false s' z (some (vec fun r => (fin (b r) : Num binary64))) = .ok (vec (fun r => fin (x r)), true, 1) →
        Lu.solve false u' z' (some (vec fun a => (fin (b (e a)) : Num binary64))) =
          .ok (vec (fun a => fin (x (e a))), true, 1) := by
  have hA : Aside true e (fun r c => (fin (B r c) : Num binary64)) (fun a b => fin (B (e a) (e b))) :=
    ⟨fun a b => rfl, fun _ a c hc => by rw [h0 a c hc], by simp, fun r c => ⟨_, rfl, hB r c⟩⟩
  obtain ⟨M', f1, f2, f4⟩ := (factorise_aside he s u s' ht hs hu _ _ hA hf _ hM fun r c => ⟨_, rfl⟩).1 rfl
  refine ⟨_, f1, ?_⟩
  intro b x z z' hb hx
  obtain ⟨p, p1, p2, p3⟩ := solve_sweeps false s s' ht hs _ hf _ hM
  obtain ⟨p', p1', p2', p3'⟩ := solve_sweeps false u _ ht (hu.trans hs) _ f1 M' rfl
  obtain rfl := p2 rfl
  obtain rfl := p2' rfl
  obtain ⟨y, w, k1, k2, k3⟩ := p3 (fun r => fin (b r)) z
  obtain ⟨y', w', k1', k2', k3'⟩ := p3' (fun a => fin (b (e a))) z'
  rw [k1] at hx
  simp only [Out.ok.injEq, Prod.mk.injEq, and_true] at hx
  have hw : ∀ r, w r = fin (x r) := fun r => congrFun (vec_inj.mp hx) r
  have hd : ∀ r, M r r ≠ 0 := by
    intro r
    obtain ⟨-, d, d1, d2⟩ := f4 r
    rw [fin_inj] at d1
    rwa [d1]
  have g1 : ∀ r, IsFin (less (y r) (fun c => fin (M r c) * w c) (r.1 + 1) (n - (r.1 + 1))) := by
    intro r
    have hq := hw r
    rw [k3 r] at hq
    obtain ⟨v, e1, -⟩ := div_fin (hd r) hq
    exact ⟨v, e1⟩
  have gy : ∀ r, IsFin (y r) := fun r => less_fin (g1 r)
  have hy : ∀ k, ∀ a : Fin m, a.1 = k → y (e a) = y' a ∧ IsDouble (y (e a)) := by
    intro k
    induction k using Nat.strong_induction_on with
    | _ k ih =>
      rintro a rfl
      have hfin := gy (e a)
      rw [k2 (e a)] at hfin
      obtain ⟨l1, l2⟩ := less_embed he (v := fin (b (e a))) ⟨_, rfl, hb _⟩ (g := fun c => M' a c * y' c)
        (fun c _ _ hc => by
          have hz : (fin (M (e a) c) : Num binary64) = fin 0 := f2.row rfl a c hc
          rw [hz, fin_zero_times (gy c)])
        (fun c _ hc => by
          have hca : c.1 < a.1 := he.lt_iff_lt.mp (show e c < e a by simpa using hc)
          rw [(ih c.1 hca c rfl).1, ← f2.same]) hfin
      rw [before_zero, Nat.zero_add, before_at he, Nat.sub_zero] at l1
      rw [k2 (e a), k2' a]
      exact ⟨l1, l2⟩
  have hwv : ∀ k, ∀ a : Fin m, m - 1 - a.1 = k → w (e a) = w' a := by
    intro k
    induction k using Nat.strong_induction_on with
    | _ k ih =>
      rintro a rfl
      have hfin := g1 (e a)
      obtain ⟨l1, -⟩ := less_embed he (hy a.1 a rfl).2 (g := fun c => M' a c * w' c)
        (fun c _ _ hc => by
          have hz : (fin (M (e a) c) : Num binary64) = fin 0 := f2.row rfl a c hc
          rw [hz, fin_zero_times ⟨_, hw c⟩])
        (fun c hc _ => by
          have hca : a.1 < c.1 := he.lt_iff_lt.mp (show e a < e c from hc)
          rw [ih (m - 1 - c.1) (by have := c.2; omega) c rfl, ← f2.same]) hfin
      rw [show (e a).1 + 1 + (n - ((e a).1 + 1)) = n by have := (e a).2; omega, before_all, before_after he] at l1
      rw [k3 (e a), k3' a, l1, (hy a.1 a rfl).1, ← f2.same]
  rw [k1', show w' = fun a => fin (x (e a)) from funext fun a => by rw [← hwv _ a rfl, hw]]

/-- C201, leading parts: for every arithmetic, without pivoting, each leading part of an accepted matrix is accepted and has the
leading part of the factors. -/
theorem c201_leading {K : Type} [Zero K] [Sub K] [Mul K] [Div K] (F : Arith K) {k n : Nat} (hk : k ≤ n) (s s' u : Lu K)
    (hu : u.tol = s.tol) (A M : Fin n → Fin n → K) (hf : factorise F false s (mat A) = .ok (s', true)) (hM : s'.lu = mat M) :
    factorise F false u (mat fun a b : Fin k => A (a.castLE hk) (b.castLE hk)) =
      .ok ({ u with factorised := true, lu := mat fun a b : Fin k => M (a.castLE hk) (b.castLE hk) }, true) := by
  obtain ⟨_, h2, N, ok, rfl, h3⟩ := loop_inv (n := n) (body := factoriseBody F false s.tol) (s := (mat A, s.piv, true))
    (fun i x => ∃ (N : Fin n → Fin n → K) (ok : Bool), x = (mat N, s.piv, ok) ∧ (ok = true →
      loop (min i k) (factoriseBody F false u.tol) (mat fun a b : Fin k => A (a.castLE hk) (b.castLE hk), u.piv, true) =
        .ok (mat fun a b : Fin k => N (a.castLE hk) (b.castLE hk), u.piv, true)))
    ⟨A, true, rfl, fun _ => by rw [Nat.zero_min]; rfl⟩ (by
      rintro i x hi ⟨N, ok, rfl, h3⟩
      cases ok with
      | false => exact ⟨_, rfl, N, false, rfl, by simp⟩
      | true =>
        cases hsmall : F.lt (F.abs (N ⟨i, hi⟩ ⟨i, hi⟩)) s.tol with
        | true =>
          refine ⟨(mat N, s.piv, false), ?_, N, false, rfl, by simp⟩
          unfold factoriseBody
          simp only [if_true, Bool.false_eq_true, if_false, Out.pure_eq, Out.ok_bind, rd2_mat N hi hi, hsmall]
        | false =>
          refine ⟨(mat (elim N ⟨i, hi⟩), s.piv, true), ?_, _, true, rfl, fun _ => ?_⟩
          · unfold factoriseBody
            simp only [if_true, Bool.false_eq_true, if_false, Out.pure_eq, Out.ok_bind, rd2_mat N hi hi, hsmall, mat_length]
            rw [eliminate_ok N ⟨i, hi⟩]
            rfl
          · by_cases hik : i < k
            · rw [show min (i + 1) k = min i k + 1 by omega, loop, h3 rfl, Out.ok_bind, show min i k = i by omega]
              unfold factoriseBody
              simp only [if_true, Bool.false_eq_true, if_false, Out.pure_eq, Out.ok_bind, rd2_mat _ hik hik, Fin.castLE_mk, hu,
                hsmall, mat_length]
              rw [eliminate_ok _ ⟨i, hik⟩, Out.ok_bind, Out.ok.injEq, Prod.mk.injEq, mat_inj]
              refine ⟨?_, rfl⟩
              funext a b
              simp only [elim, Fin.lt_def, Fin.ext_iff, Fin.val_castLE, Fin.castLE_mk]
            · rw [show min (i + 1) k = min i k by omega, h3 rfl, Out.ok.injEq, Prod.mk.injEq, mat_inj]
              refine ⟨?_, rfl⟩
              funext a b
              have : ¬ (⟨i, hi⟩ : Fin n) < a.castLE hk := by
                show ¬ i < a.1
                have := a.2
                omega
              simp only [elim, if_neg this])
  unfold factorise at hf ⊢
  simp only [Bool.false_eq_true, if_false] at hf ⊢
  rw [mat_length, h2, Out.ok_bind] at hf
  simp only [Out.pure_eq, Out.ok.injEq, Prod.mk.injEq] at hf
  obtain ⟨rfl, rfl⟩ := hf
  obtain rfl := mat_inj.mp hM
  have h4 := h3 rfl
  rw [Nat.min_eq_right hk] at h4
  rw [mat_length, h4]
  rfl

/-- With pivoting a matrix can be accepted although a part that does not have the other unknowns is rejected alone: the
hypothesis on pivoting of `c201_accepted` is needed. -/
theorem c201_pivoting :
    factorise (Num.arith binary64) true freshDouble [[fin (1 / 2 ^ 50)]] =
      .ok (⟨false, (Num.arith binary64).tol, [[fin (1 / 2 ^ 50)]], [0]⟩, false) ∧
    factorise (Num.arith binary64) true freshDouble [[fin (1 / 2 ^ 50), fin 0], [fin 1, fin (2 ^ 20)]] =
      .ok (⟨true, (Num.arith binary64).tol, [[fin 1, fin (2 ^ 20)], [fin (1 / 2 ^ 50), fin (-1 / 2 ^ 30)]], [1, 0]⟩, true) := by
  decide +kernel

/-- Three equations of which the first and the third do not have the second unknown meet the hypotheses, with rounding. -/
example : StrictMono (![0, 2] : Fin 2 → Fin 3) ∧ StrictMono (![1] : Fin 1 → Fin 3) ∧
    (∀ r : Fin 3, (∃ k : Fin 2, (![0, 2] : Fin 2 → Fin 3) k = r) ∨ ∃ k : Fin 1, (![1] : Fin 1 → Fin 3) k = r) ∧
    freshDouble.tol = fin (64 * (1 / 2 ^ 52)) ∧
    (∀ r c : Fin 3, binary64 ((![![3, 0, 1], ![5, 3, 7], ![1, 0, 2]] : Fin 3 → Fin 3 → ℚ) r c) =
      .fin ((![![3, 0, 1], ![5, 3, 7], ![1, 0, 2]] : Fin 3 → Fin 3 → ℚ) r c)) ∧
    (∀ (a : Fin 2) (b : Fin 1), (![![3, 0, 1], ![5, 3, 7], ![1, 0, 2]] : Fin 3 → Fin 3 → ℚ) ((![0, 2] : Fin 2 → Fin 3) a)
      ((![1] : Fin 1 → Fin 3) b) = 0) ∧
    factorise (Num.arith binary64) false freshDouble [[fin 3, fin 0, fin 1], [fin 5, fin 3, fin 7], [fin 1, fin 0, fin 2]] =
      .ok (⟨true, (Num.arith binary64).tol, [[fin 3, fin 0, fin 1],
        [fin (7505999378950827 / 2 ^ 52), fin 3, fin (6004799503160661 / 2 ^ 50)],
        [fin (6004799503160661 / 2 ^ 54), fin 0, fin (7505999378950827 / 2 ^ 52)]], []⟩, true) ∧
    factorise (Num.arith binary64) false freshDouble [[fin 3, fin 1], [fin 1, fin 2]] =
      .ok (⟨true, (Num.arith binary64).tol, [[fin 3, fin 1],
        [fin (6004799503160661 / 2 ^ 54), fin (7505999378950827 / 2 ^ 52)]], []⟩, true) := by
  refine ⟨?_, ?_, by decide +kernel, rfl, by decide +kernel, by decide +kernel, by decide +kernel, by decide +kernel⟩
  · intro a b h
    fin_cases a <;> fin_cases b <;> simp_all
  · intro a b h
    fin_cases a; fin_cases b; simp_all

/-- A rejected matrix that meets the hypotheses: its factors are stored as far as they were computed. -/
example :
    factorise (Num.arith binary64) false freshDouble [[fin 2, fin 0, fin 1], [fin 5, fin 3, fin 7], [fin 4, fin 0, fin 2]] =
      .ok (⟨false, (Num.arith binary64).tol, [[fin 2, fin 0, fin 1], [fin (5 / 2), fin 3, fin (9 / 2)], [fin 2, fin 0, fin 0]],
        []⟩, false) ∧
    factorise (Num.arith binary64) false freshDouble [[fin 2, fin 1], [fin 4, fin 2]] =
      .ok (⟨false, (Num.arith binary64).tol, [[fin 2, fin 1], [fin 2, fin 0]], []⟩, false) ∧
    factorise (Num.arith binary64) false freshDouble [[fin 3]] = .ok (⟨true, (Num.arith binary64).tol, [[fin 3]], []⟩, true) := by
  decide +kernel

end Disa.Props
