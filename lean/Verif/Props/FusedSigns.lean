import Verif.Props.LuSigns
import Verif.Props.FusedExact

/-!
# Property C229: signs of equations and unknowns do not matter to the direct solver with fused operations
-/

namespace Disa.Props

open Disa Spec Dense Num Lu Fused

/-! ### Signs -/

section

variable {fuse : Hist → Hist → Hist → Bool}

/-- The number with the other sign, or the same, that was computed in the same way. -/
def alike (s : Bool) : Fused binary64 fuse → Fused binary64 fuse
  | .num x h => .num (turn s x) h
  | .prod a b h k => .prod (turn s a) b h k

theorem mul_opposite {r : ℚ → Fl} (hr : ∀ q, r (-q) = Fl.neg (r q)) (a b : Fl) : Fl.mul r (Fl.neg a) b = Fl.neg (Fl.mul r a b) := by
  rcases a with _ | s | p <;> rcases b with _ | t | q
  case fin.fin =>
    show r (-p * q) = Fl.neg (r (p * q))
    rw [← hr, _root_.neg_mul]
  all_goals try rfl
  · cases s <;> cases t <;> rfl
  · show (if q = 0 then Fl.nan else Fl.inf ((!s) != decide (q < 0))) = Fl.neg (if q = 0 then Fl.nan else Fl.inf (s != decide (q < 0)))
    split
    · rfl
    · cases s <;> cases decide (q < 0) <;> rfl
  · show (if -p = 0 then Fl.nan else Fl.inf (decide (-p < 0) != t)) = Fl.neg (if p = 0 then Fl.nan else Fl.inf (decide (p < 0) != t))
    by_cases h : p = 0
    · rw [if_pos (by simpa using h), if_pos h]; rfl
    · rw [if_neg (by simpa using h), if_neg h, Double.decide_neg h]
      cases t <;> cases decide (p < 0) <;> rfl

theorem mul_opposite_right {r : ℚ → Fl} (hr : ∀ q, r (-q) = Fl.neg (r q)) (a b : Fl) : Fl.mul r a (Fl.neg b) = Fl.neg (Fl.mul r a b) := by
  rcases a with _ | s | p <;> rcases b with _ | t | q
  case fin.fin =>
    show r (p * -q) = Fl.neg (r (p * q))
    rw [← hr, _root_.mul_neg]
  all_goals try rfl
  · cases s <;> cases t <;> rfl
  · show (if -q = 0 then Fl.nan else Fl.inf (s != decide (-q < 0))) = Fl.neg (if q = 0 then Fl.nan else Fl.inf (s != decide (q < 0)))
    by_cases h : q = 0
    · rw [if_pos (by simpa using h), if_pos h]; rfl
    · rw [if_neg (by simpa using h), if_neg h, Double.decide_neg h]
      cases s <;> cases decide (q < 0) <;> rfl
  · show (if p = 0 then Fl.nan else Fl.inf (decide (p < 0) != (!t))) = Fl.neg (if p = 0 then Fl.nan else Fl.inf (decide (p < 0) != t))
    split
    · rfl
    · cases t <;> cases decide (p < 0) <;> rfl

theorem mul_turned {r : ℚ → Fl} (hr : ∀ q, r (-q) = Fl.neg (r q)) (s t : Bool) (a b : Fl) :
    Fl.mul r (turn s a) (turn t b) = turn (s ^^ t) (Fl.mul r a b) := by
  cases s <;> cases t
  · rfl
  · exact mul_opposite_right hr a b
  · exact mul_opposite hr a b
  · show Fl.mul r (Fl.neg a) (Fl.neg b) = Fl.mul r a b
    rw [mul_opposite hr, mul_opposite_right hr]
    exact Double.neg_neg _

theorem get_alike (s : Bool) (a : Fused binary64 fuse) : (alike s a).get = turn s a.get := by
  cases a with
  | num x h => rfl
  | prod a b h k =>
    have := mul_turned binary64_neg s false a b
    rwa [Bool.xor_false] at this

theorem hist_alike (s : Bool) (a : Fused binary64 fuse) : (alike s a).hist = a.hist := by
  cases a <;> rfl

theorem alike_sub_mul {s t t' : Bool} (h : (t ^^ t') = s) (v a b : Fused binary64 fuse) :
    alike s v - alike t a * alike t' b = alike s (v - a * b) := by
  have e : (alike t a * alike t' b).operand v.hist = turn s ((a * b).operand v.hist) := by
    show Fl.mul (if fuse v.hist (alike t a).hist (alike t' b).hist then .fin else binary64) (alike t a).get (alike t' b).get =
      turn s (Fl.mul (if fuse v.hist a.hist b.hist then .fin else binary64) a.get b.get)
    rw [hist_alike, hist_alike, get_alike, get_alike, ← h]
    refine mul_turned ?_ t t' _ _
    intro q
    split
    · rfl
    · exact binary64_neg q
  show Fused.num (Fl.sub binary64 (alike s v).get ((alike t a * alike t' b).operand (alike s v).hist))
    (.op 1 (alike s v).hist (.op 2 (alike t a).hist (alike t' b).hist)) = _
  rw [hist_alike, hist_alike, hist_alike, e, get_alike]
  rw [show Fl.sub binary64 (turn s v.get) (turn s ((a * b).operand v.hist)) = turn s (Fl.sub binary64 v.get ((a * b).operand v.hist)) from
    turn_sub s v.get _]
  rfl

theorem alike_div (s t : Bool) (a : Fused binary64 fuse) {b : Fused binary64 fuse} (hb : b.get ≠ .fin 0) :
    alike s a / alike t b = alike (s ^^ t) (a / b) := by
  show Fused.num (Fl.div binary64 (alike s a).get (alike t b).get) (.op 3 (alike s a).hist (alike t b).hist) = _
  rw [hist_alike, hist_alike, get_alike, get_alike]
  rw [show Fl.div binary64 (turn s a.get) (turn t b.get) = turn (s ^^ t) (Fl.div binary64 a.get b.get) from turn_div s t a.get hb]
  rfl

theorem abs_alike (s : Bool) (a : Fused binary64 fuse) : (Fused.arith binary64 fuse).abs (alike s a) = (Fused.arith binary64 fuse).abs a := by
  show Fused.num (Fl.abs (alike s a).get) (.op 4 (alike s a).hist (alike s a).hist) = _
  rw [hist_alike, get_alike, show Fl.abs (turn s a.get) = Fl.abs a.get from abs_turn s a.get]
  rfl

theorem less_alike {n : Nat} (s : Bool) {v v' : Fused binary64 fuse} (hv : v' = alike s v) {f g f' g' : Fin n → Fused binary64 fuse}
    {a l : Nat} (h : ∀ c : Fin n, a ≤ c.1 → c.1 < a + l → ∃ t t' : Bool, (t ^^ t') = s ∧ f' c = alike t (f c) ∧ g' c = alike t' (g c)) :
    less v' (fun c => f' c * g' c) a l = alike s (less v (fun c => f c * g c) a l) := by
  induction l with
  | zero => exact hv
  | succ l ih =>
    have ih := ih fun c h1 h2 => h c h1 (by omega)
    by_cases hl : a + l < n
    · obtain ⟨t, t', h1, h2, h3⟩ := h ⟨a + l, hl⟩ (Nat.le_add_right a l) (by simp)
      rw [less, dif_pos hl, less, dif_pos hl, ih, h2, h3, alike_sub_mul h1]
    · rw [less, dif_neg hl, less, dif_neg hl, ih]

end

/-! ### Steps with any scalars -/

section

variable {K : Type} {n : Nat}

theorem elimAny_same [Sub K] [Mul K] [Div K] (M : Fin n → Fin n → K) {i r c : Fin n} (h : r ≤ i ∨ c < i) : elim M i r c = M r c := by
  unfold elim
  rcases h with h | h
  · rw [if_neg (not_lt.mpr h)]
  · split
    · rw [if_neg (ne_of_lt h), if_neg (not_lt.mpr h.le)]
    · rfl

theorem elimAny_at [Sub K] [Mul K] [Div K] (M : Fin n → Fin n → K) (i : Fin n) {r : Fin n} (hr : i < r) : elim M i r i = M r i / M i i := by
  unfold elim
  rw [if_pos hr, if_pos rfl]

theorem elimAny_past [Sub K] [Mul K] [Div K] (M : Fin n → Fin n → K) (i : Fin n) {r c : Fin n} (hr : i < r) (hc : i < c) :
    elim M i r c = M r c - M r i / M i i * M i c := by
  unfold elim
  rw [if_pos hr, if_neg (ne_of_gt hc), if_pos hc]

theorem pivotStep_searchF [Zero K] {F : Arith K} {M : Fin n → Fin n → K} (p : Fin n → Nat) (i l : Fin n) {mx : K}
    (hs : loop (n - i.1) (searchBody F (mat M) i.1) ((0 : K), i.1) = .ok (mx, l.1)) :
    pivotStep F i (mat M, vec p) = .ok (mat fun r => M (Equiv.swap i l r), vec fun r => p (Equiv.swap i l r)) := by
  unfold pivotStep
  simp only
  rw [sizeColumn_mat (by have := i.2; omega), hs, Out.ok_bind]
  simp only
  by_cases hm : l.1 = i.1
  · obtain rfl := Fin.ext hm
    simp
  · have hm' : (l.1 != i.1) = true := by simpa using hm
    rw [if_pos hm', show swapAt (vec p) i.1 l.1 = _ from swapAt_ok p i l, Out.ok_bind, mat_eq_vec,
      show swapAt (vec fun r => vec (M r)) i.1 l.1 = _ from swapAt_ok _ i l]
    rfl

theorem bodyF_ok [Zero K] [Sub K] [Mul K] [Div K] {F : Arith K} {N : Fin n → Fin n → K} {pivot : Bool} {tol : K} {lu : List (List K)} {st st1 : List Nat} (i : Fin n)
    (h : (if pivot then pivotStep F i.1 (lu, st) else pure (lu, st)) = .ok (mat N, st1)) (hlt : F.lt (F.abs (N i i)) tol = false) :
    factoriseBody F pivot tol i.1 (lu, st, true) = .ok (mat (elim N i), st1, true) := by
  unfold factoriseBody
  simp only [if_true, h, Out.ok_bind, rd2_mat N i.2 i.2, hlt, Bool.false_eq_true, if_false, mat_length]
  rw [eliminate_ok N i]
  rfl

end

/-! ### Factors -/

section

variable {fuse : Hist → Hist → Hist → Bool} {n : Nat} (σ τ : Fin n → Bool)

/-- The factors after `i` steps with rows in the order `p`, for changed signs. -/
def alikeFactors (p : Equiv.Perm (Fin n)) (i : Nat) (M : Fin n → Fin n → Fused binary64 fuse) : Fin n → Fin n → Fused binary64 fuse := fun r c =>
  alike (σ (p r) ^^ if c.1 < i ∧ c < r then σ (p c) else τ c) (M r c)

variable {σ τ}

theorem alike_elim (p : Equiv.Perm (Fin n)) (M : Fin n → Fin n → Fused binary64 fuse) (i : Fin n) (hi : (M i i).get ≠ .fin 0) :
    elim (alikeFactors σ τ p i.1 M) i = alikeFactors σ τ p (i.1 + 1) (elim M i) := by
  funext r c
  by_cases hr : i < r
  · have hr' : i.1 < r.1 := hr
    rcases lt_trichotomy c i with hc | rfl | hc
    · have hc' : c.1 < i.1 := hc
      rw [elimAny_same _ (.inr hc)]
      unfold alikeFactors
      rw [elimAny_same _ (.inr hc)]
      simp only [hc', Nat.lt_succ_of_lt hc']
    · rw [elimAny_at _ _ hr]
      unfold alikeFactors
      rw [elimAny_at _ _ hr]
      simp only [lt_irrefl, false_and, if_false, Nat.lt_succ_self, hr, and_self, if_true]
      rw [alike_div _ _ _ hi]
      congr 1
      cases σ (p r) <;> cases τ c <;> cases σ (p c) <;> rfl
    · have hc' : i.1 < c.1 := hc
      rw [elimAny_past _ i hr hc]
      unfold alikeFactors
      rw [elimAny_past _ i hr hc]
      simp only [lt_irrefl, false_and, if_false, not_lt_of_ge hc'.le, not_lt_of_ge (Nat.succ_le_of_lt hc')]
      rw [alike_div _ _ _ hi]
      refine alike_sub_mul ?_ _ _ _
      cases σ (p r) <;> cases τ c <;> cases τ i <;> cases σ (p i) <;> rfl
  · have hr' : r.1 ≤ i.1 := not_lt.mp hr
    rw [elimAny_same _ (.inl (not_lt.mp hr))]
    unfold alikeFactors
    rw [elimAny_same _ (.inl (not_lt.mp hr))]
    have : (c.1 < i.1 ∧ c < r) ↔ (c.1 < i.1 + 1 ∧ c < r) := by
      constructor
      · rintro ⟨a, b⟩; exact ⟨by omega, b⟩
      · rintro ⟨a, b⟩; exact ⟨by have : c.1 < r.1 := b; omega, b⟩
    simp only [this]

theorem alike_swap (p : Equiv.Perm (Fin n)) (M : Fin n → Fin n → Fused binary64 fuse) {i l : Fin n} (hl : i ≤ l) :
    (fun r => alikeFactors σ τ p i.1 M (Equiv.swap i l r)) = alikeFactors σ τ ((Equiv.swap i l).trans p) i.1 (fun r => M (Equiv.swap i l r)) := by
  have hl' : i.1 ≤ l.1 := hl
  funext r c
  unfold alikeFactors
  simp only [Equiv.trans_apply]
  by_cases hc : c.1 < i.1
  · have h1 : Equiv.swap i l c = c := Equiv.swap_apply_of_ne_of_ne (by rintro rfl; omega) (by rintro rfl; omega)
    have h2 : c < Equiv.swap i l r ↔ c < r := by
      rcases eq_or_ne r i with rfl | hri
      · rw [Equiv.swap_apply_left]
        exact iff_of_true (show c.1 < l.1 by omega) hc
      · rcases eq_or_ne r l with rfl | hrl
        · rw [Equiv.swap_apply_right]
          exact iff_of_true hc (show c.1 < r.1 by omega)
        · rw [Equiv.swap_apply_of_ne_of_ne hri hrl]
    simp only [h1, h2]
  · simp only [hc, false_and, if_false]

theorem searchF_any (M : Fin n → Fin n → Fused binary64 fuse) (i : Fin n) :
    ∃ (mx : Fused binary64 fuse) (l : Fin n), i ≤ l ∧
      loop (n - i.1) (searchBody (Fused.arith binary64 fuse) (mat M) i.1) ((0 : Fused binary64 fuse), i.1) = .ok (mx, l.1) := by
  obtain ⟨⟨mx, m⟩, h1, h2, h3⟩ := loop_inv (n := n - i.1) (body := searchBody (Fused.arith binary64 fuse) (mat M) i.1)
    (s := ((0 : Fused binary64 fuse), i.1)) (fun k t => i.1 ≤ t.2 ∧ t.2 < n) ⟨le_rfl, i.2⟩ (by
      rintro k ⟨mx, m⟩ hk ⟨h2, h3⟩
      have hr : i.1 + k < n := by omega
      obtain ⟨g, hg⟩ := nearlyGreater_fused ((Fused.arith binary64 fuse).abs (M ⟨i.1 + k, hr⟩ i)) mx
      unfold searchBody
      rw [rd2_mat M hr i.2, Out.ok_bind]
      simp only [hg, Out.ok_bind]
      refine ⟨_, rfl, ?_⟩
      cases g
      · exact ⟨h2, h3⟩
      · exact ⟨Nat.le_add_right _ _, hr⟩)
  exact ⟨mx, ⟨m, h3⟩, h2, h1⟩

theorem searchF_alike (p : Equiv.Perm (Fin n)) (M : Fin n → Fin n → Fused binary64 fuse) (i : Fin n) (j : Nat) (hj : i.1 + j ≤ n)
    (st : Fused binary64 fuse × Nat) :
    loop j (searchBody (Fused.arith binary64 fuse) (mat (alikeFactors σ τ p i.1 M)) i.1) st =
      loop j (searchBody (Fused.arith binary64 fuse) (mat M) i.1) st := by
  induction j with
  | zero => rfl
  | succ j ih =>
    rw [loop, loop, ih (by omega)]
    congr 1
    funext x
    unfold searchBody
    have hr : i.1 + j < n := by omega
    rw [rd2_mat _ hr i.2, rd2_mat _ hr i.2, Out.ok_bind, Out.ok_bind]
    unfold alikeFactors
    rw [abs_alike]

/-- Both factorisations take the same steps. -/
theorem factorise_alike (pivot : Bool) (s u : Lu (Fused binary64 fuse)) {t : ℚ} (ht : 0 < t) (hs : s.tol.get = .fin t) (hu : u.tol = s.tol)
    (A : Fin n → Fin n → Fused binary64 fuse) :
    ∃ (p : Equiv.Perm (Fin n)) (M M' : Fin n → Fin n → Fused binary64 fuse) (st st' : List Nat) (ok : Bool),
      factorise (Fused.arith binary64 fuse) pivot s (mat A) = .ok ({ s with factorised := ok, lu := mat M, piv := st }, ok) ∧
      factorise (Fused.arith binary64 fuse) pivot u (mat fun r c => alike (σ r ^^ τ c) (A r c)) =
        .ok ({ u with factorised := ok, lu := mat M', piv := st' }, ok) ∧
      (pivot = true → st = (vec fun r => (p r).1) ∧ st' = st) ∧ (pivot = false → p = 1) ∧
      (ok = true → M' = alikeFactors σ τ p n M ∧ ∀ r, (M r r).get ≠ .fin 0) := by
  set init : List Nat := if pivot then List.range (sizeColumn (mat A)) else s.piv with hinit
  set init' : List Nat := if pivot then List.range (sizeColumn (mat fun r c => alike (σ r ^^ τ c) (A r c))) else u.piv with hinit'
  obtain ⟨_, h2, p, N, N', st, st', ok, rfl, h3, h4, h5, h6⟩ := loop_inv (n := n)
    (body := factoriseBody (Fused.arith binary64 fuse) pivot s.tol) (s := (mat A, init, true))
    (fun i x => ∃ (p : Equiv.Perm (Fin n)) (N N' : Fin n → Fin n → Fused binary64 fuse) (st st' : List Nat) (ok : Bool),
      x = (mat N, st, ok) ∧
      loop i (factoriseBody (Fused.arith binary64 fuse) pivot u.tol) (mat fun r c => alike (σ r ^^ τ c) (A r c), init', true) =
        .ok (mat N', st', ok) ∧
      (pivot = true → st = (vec fun r => (p r).1) ∧ st' = st) ∧ (pivot = false → p = 1) ∧
      (ok = true → N' = alikeFactors σ τ p i N ∧ ∀ r : Fin n, r.1 < i → (N r r).get ≠ .fin 0))
    ⟨1, A, _, init, init', true, rfl, rfl, fun hp => by
        rw [hinit, hinit', if_pos hp, if_pos hp, sizeColumn_mat (by omega), sizeColumn_mat (by omega), vec_range]
        exact ⟨rfl, rfl⟩, fun _ => rfl, fun _ => ⟨by
        funext r c
        simp [alikeFactors], fun r hr => absurd hr (Nat.not_lt_zero _)⟩⟩ (by
      rintro i x hi ⟨p, N, N', st, st', ok, rfl, h1, h3, h4, h5⟩
      cases ok with
      | false =>
        refine ⟨_, rfl, p, N, N', st, st', false, rfl, ?_, h3, h4, by simp⟩
        rw [loop, h1]
        rfl
      | true =>
        obtain ⟨rfl, h6⟩ := h5 rfl
        obtain ⟨p1, N1, st1, st1', e1, e1', hp1, hp2, hdiag⟩ : ∃ (p1 : Equiv.Perm (Fin n)) (N1 : Fin n → Fin n → Fused binary64 fuse)
            (st1 st1' : List Nat),
            (if pivot then pivotStep (Fused.arith binary64 fuse) i (mat N, st) else pure (mat N, st)) = .ok (mat N1, st1) ∧
            (if pivot then pivotStep (Fused.arith binary64 fuse) i (mat (alikeFactors σ τ p i N), st') else pure (mat (alikeFactors σ τ p i N), st')) =
              .ok (mat (alikeFactors σ τ p1 i N1), st1') ∧
            (pivot = true → st1 = (vec fun r => (p1 r).1) ∧ st1' = st1) ∧ (pivot = false → p1 = 1) ∧
            ∀ r : Fin n, r.1 < i → (N1 r r).get ≠ .fin 0 := by
          cases pivot with
          | false => exact ⟨p, N, st, st', rfl, rfl, h3, h4, h6⟩
          | true =>
            obtain ⟨rfl, rfl⟩ := h3 rfl
            obtain ⟨mx, l, hl, hsr⟩ := searchF_any N ⟨i, hi⟩
            refine ⟨(Equiv.swap ⟨i, hi⟩ l).trans p, _, _, _, pivotStep_searchF (fun r => (p r).1) ⟨i, hi⟩ l hsr, ?_,
              fun _ => ⟨rfl, rfl⟩, by simp, fun r hr => ?_⟩
            · rw [← alike_swap (i := ⟨i, hi⟩) p N hl]
              refine pivotStep_searchF (fun r => (p r).1) ⟨i, hi⟩ l (mx := mx) ?_
              rw [searchF_alike (i := ⟨i, hi⟩) p N (n - i) (by simp; omega)]
              exact hsr
            · rw [Equiv.swap_apply_of_ne_of_ne]
              · exact h6 r hr
              · rintro rfl; exact absurd hr (by simp)
              · rintro rfl
                have : i ≤ r.1 := hl
                omega
        have habs : (Fused.arith binary64 fuse).abs (alikeFactors σ τ p1 i N1 ⟨i, hi⟩ ⟨i, hi⟩) = (Fused.arith binary64 fuse).abs (N1 ⟨i, hi⟩ ⟨i, hi⟩) :=
          abs_alike _ _
        cases hsmall : (Fused.arith binary64 fuse).lt ((Fused.arith binary64 fuse).abs (N1 ⟨i, hi⟩ ⟨i, hi⟩)) s.tol with
        | true =>
          refine ⟨(mat N1, st1, false), ?_, p1, N1, alikeFactors σ τ p1 i N1, st1, st1', false, rfl, ?_, hp1, hp2, by simp⟩
          · unfold factoriseBody
            simp only [if_true, e1, Out.ok_bind, rd2_mat N1 hi hi, hsmall]
            rfl
          · rw [loop, h1, Out.ok_bind]
            unfold factoriseBody
            simp only [if_true, e1', Out.ok_bind, rd2_mat _ hi hi, habs, hu, hsmall]
            rfl
        | false =>
          have hne : (N1 ⟨i, hi⟩ ⟨i, hi⟩).get ≠ .fin 0 := by
            intro h0
            have h5 := isFin_of h0
            exact ne_zero_of_acceptedF ht hs hsmall h5.1 h5.2
          refine ⟨_, bodyF_ok ⟨i, hi⟩ e1 hsmall, p1, _, alikeFactors σ τ p1 (i + 1) (elim N1 ⟨i, hi⟩), st1, st1', true, rfl, ?_, hp1, hp2,
            fun _ => ⟨rfl, fun r hr => ?_⟩⟩
          · rw [loop, h1, Out.ok_bind, ← alike_elim (i := ⟨i, hi⟩) p1 N1 hne]
            exact bodyF_ok ⟨i, hi⟩ e1' (by simp only [habs, hu, hsmall])
          · rw [elimAny_same N1 (.inl (show r.1 ≤ i by omega))]
            by_cases hri : r.1 < i
            · exact hdiag r hri
            · obtain rfl : r = ⟨i, hi⟩ := Fin.ext (by show r.1 = i; omega)
              exact hne)
  refine ⟨p, N, N', st, st', ok, ?_, ?_, h4, h5, fun h => ⟨(h6 h).1, fun r => (h6 h).2 r r.2⟩⟩
  · unfold factorise
    rw [mat_length, ← hinit, h2]
    rfl
  · unfold factorise
    rw [mat_length, ← hinit', h3]
    rfl

end

/-! ### The property -/

/-- C229: changing the signs of equations and of unknowns does not change whether the matrix is accepted nor the pivots, and changes
the solution by the signs of the unknowns only, to the last bit, whatever operations are fused. -/
theorem c229_signs {fuse : Hist → Hist → Hist → Bool} {n : Nat} (σ τ : Fin n → Bool) (pivot : Bool) (s u : Lu (Fused binary64 fuse)) {t : ℚ}
    (ht : 0 < t) (hs : s.tol.get = .fin t) (hu : u.tol = s.tol) (a : Fin n → Fin n → Num binary64) (h : Fin n → Fin n → Hist) :
    ∃ (s' u' : Lu (Fused binary64 fuse)) (ok : Bool),
      factorise (Fused.arith binary64 fuse) pivot s (mat fun r c => .num (a r c) (h r c)) = .ok (s', ok) ∧
      factorise (Fused.arith binary64 fuse) pivot u (mat fun r c => .num (if σ r = τ c then a r c else -a r c) (h r c)) = .ok (u', ok) ∧
      (pivot = true → u'.piv = s'.piv) ∧
      (ok = true → ∀ (b : Fin n → Num binary64) (k : Fin n → Hist) (z z' : List (Fused binary64 fuse)),
        ∃ x x' : Fin n → Fused binary64 fuse,
          Lu.solve pivot s' z (some (vec fun r => .num (b r) (k r))) = .ok (vec x, true, 1) ∧
          Lu.solve pivot u' z' (some (vec fun r => .num (if σ r then -b r else b r) (k r))) = .ok (vec x', true, 1) ∧
          ∀ c, (x' c).get = if τ c then Fl.neg (x c).get else (x c).get) := by
  have hA : (fun r c => (.num (if σ r = τ c then a r c else -a r c) (h r c) : Fused binary64 fuse)) =
      fun r c => alike (σ r ^^ τ c) (.num (a r c) (h r c)) := by
    funext r c
    cases σ r <;> cases τ c <;> rfl
  rw [hA]
  obtain ⟨p, M, M', st, st', ok, e1, e2, h1, h2, h3⟩ := factorise_alike (σ := σ) (τ := τ) pivot s u ht hs hu
    (fun r c => .num (a r c) (h r c))
  refine ⟨_, _, ok, e1, e2, fun h => (h1 h).2, ?_⟩
  rintro rfl b k z z'
  obtain ⟨rfl, h4⟩ := h3 rfl
  have hb : (fun r => (.num (if σ r then -b r else b r) (k r) : Fused binary64 fuse)) = fun r => alike (σ r) (.num (b r) (k r)) := by
    funext r
    cases σ r <;> rfl
  obtain ⟨y, x, k1, k2, k3⟩ := solve_any pivot { s with factorised := true, lu := mat M, piv := st } M rfl rfl p
    (fun h => (h1 h).1) h2 (fun r => .num (b r) (k r)) z
  obtain ⟨y', x', k1', k2', k3'⟩ := solve_any pivot { u with factorised := true, lu := mat (alikeFactors σ τ p n M), piv := st' } _ rfl rfl p
    (fun h => by rw [← (h1 h).1]; exact (h1 h).2) h2 (fun r => alike (σ r) (.num (b r) (k r))) z'
  refine ⟨x, x', k1, by rw [hb]; exact k1', ?_⟩
  have hy : ∀ k, ∀ r : Fin n, r.1 = k → y' r = alike (σ (p r)) (y r) := by
    intro k
    induction k using Nat.strong_induction_on with
    | _ k ih =>
      rintro r rfl
      rw [k2 r, k2' r]
      refine less_alike _ rfl fun c _ hc => ?_
      rw [Nat.zero_add] at hc
      refine ⟨σ (p r) ^^ σ (p c), σ (p c), by cases σ (p r) <;> cases σ (p c) <;> rfl, ?_, ih c.1 hc c rfl⟩
      unfold alikeFactors
      rw [if_pos ⟨c.2, hc⟩]
  have hx : ∀ k, ∀ r : Fin n, n - 1 - r.1 = k → x' r = alike (τ r) (x r) := by
    intro k
    induction k using Nat.strong_induction_on with
    | _ k ih =>
      rintro r rfl
      rw [k3 r, k3' r]
      rw [less_alike (σ (p r)) (hy _ r rfl) (f := fun c => M r c) (g := x) fun c hc _ => ?_]
      · unfold alikeFactors
        rw [if_neg fun h => lt_irrefl _ h.2, alike_div _ _ _ (h4 r)]
        congr 1
        cases σ (p r) <;> cases τ r <;> rfl
      · have hrc : r.1 < c.1 := hc
        refine ⟨σ (p r) ^^ τ c, τ c, by cases σ (p r) <;> cases τ c <;> rfl, ?_, ih (n - 1 - c.1) (by have := c.2; omega) c rfl⟩
        unfold alikeFactors
        rw [if_neg fun h => lt_asymm (show r.1 < c.1 from hrc) h.2]
  intro c
  rw [hx _ c rfl]
  exact get_alike _ _

/-- The hypotheses are met where fusing changes the factors: the second pivot with fused operations, and without. -/
example : freshDouble.tol = fin (64 * (1 / 2 ^ 52)) ∧
    (factorise (Fused.arith binary64 fun _ _ _ => true) false ⟨false, inp 0 (64 * (1 / 2 ^ 52)), [], []⟩
      [[inp 0 1, inp 1 (1 + 1 / 2 ^ 30)], [inp 2 (-(1 + 1 / 2 ^ 30)), inp 3 (-(1 + 1 / 2 ^ 29 + 1 / 2 ^ 40))]] >>= fun r =>
        (fun x => x.get) <$> rd2 r.1.lu 1 1) = .ok (.fin (-(1 / 2 ^ 40) + 1 / 2 ^ 60)) ∧
    (factorise (Fused.arith binary64 fun _ _ _ => true) false ⟨false, inp 0 (64 * (1 / 2 ^ 52)), [], []⟩
      [[inp 0 1, inp 1 (1 + 1 / 2 ^ 30)], [inp 2 (1 + 1 / 2 ^ 30), inp 3 (1 + 1 / 2 ^ 29 + 1 / 2 ^ 40)]] >>= fun r =>
        (fun x => x.get) <$> rd2 r.1.lu 1 1) = .ok (.fin (1 / 2 ^ 40 - 1 / 2 ^ 60)) ∧
    (factorise (Fused.arith binary64 fun _ _ _ => false) false ⟨false, inp 0 (64 * (1 / 2 ^ 52)), [], []⟩
      [[inp 0 1, inp 1 (1 + 1 / 2 ^ 30)], [inp 2 (1 + 1 / 2 ^ 30), inp 3 (1 + 1 / 2 ^ 29 + 1 / 2 ^ 40)]] >>= fun r =>
        (fun x => x.get) <$> rd2 r.1.lu 1 1) = .ok (.fin (1 / 2 ^ 40)) := by
  decide +kernel

end Disa.Props
