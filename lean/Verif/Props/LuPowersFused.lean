import Verif.Props.FusedSigns
import Verif.Props.LuFillFused
import Verif.Props.LuPowers

/-!
# Property C237: equations times powers of two in the direct solver with fused operations
-/

namespace Disa.Props

open Disa Spec Dense Num Lu Fused

/-! ### Factors that satisfy their equations are found, with any scalars -/

section closed

variable {K : Type} [Zero K] [Sub K] [Mul K] [Div K] {n : Nat} (A M : Fin n → Fin n → K)

/-- The matrix after `i` steps, when its factors are `M`. -/
def partWayAny (i : Nat) (r c : Fin n) : K :=
  if c < r ∧ c.1 < i then M r c else less (A r c) (fun k => M r k * M k c) 0 (min i r.1)

variable {A M}

omit [Zero K] in
theorem partWayAny_step (hl : ∀ r c, c < r → M r c = less (A r c) (fun k => M r k * M k c) 0 c.1 / M c c)
    (hu : ∀ r c, r ≤ c → M r c = less (A r c) (fun k => M r k * M k c) 0 r.1) (i : Fin n) :
    elim (partWayAny A M i.1) i = partWayAny A M (i.1 + 1) := by
  funext r c
  have row : ∀ c, i ≤ c → partWayAny A M i.1 i c = M i c := fun c hc => by
    unfold partWayAny
    rw [if_neg (fun h => absurd h.1 (not_lt.mpr hc)), Nat.min_self, hu i c hc]
  by_cases hr : i < r
  · have hr' : i.1 < r.1 := hr
    have col : partWayAny A M i.1 r i / partWayAny A M i.1 i i = M r i := by
      rw [row i le_rfl, hl r i hr]
      unfold partWayAny
      rw [if_neg (by simp), Nat.min_eq_left hr'.le]
    rcases lt_trichotomy c i with hc | rfl | hc
    · have hc' : c.1 < i.1 := hc
      rw [elimAny_same _ (.inr hc)]
      unfold partWayAny
      rw [if_pos ⟨show c.1 < r.1 by omega, hc'⟩, if_pos ⟨show c.1 < r.1 by omega, by omega⟩]
    · rw [elimAny_at _ _ hr, col]
      unfold partWayAny
      rw [if_pos ⟨hr, by omega⟩]
    · have hc' : i.1 < c.1 := hc
      rw [elimAny_past _ i hr hc, col, row c hc.le]
      unfold partWayAny
      rw [if_neg (by omega), if_neg (by omega), Nat.min_eq_left hr'.le, Nat.min_eq_left (Nat.succ_le_of_lt hr')]
      rw [less, dif_pos (by omega)]
      have : (⟨0 + i.1, by omega⟩ : Fin n) = i := Fin.ext (by simp)
      rw [this]
  · have hr' : r.1 ≤ i.1 := not_lt.mp hr
    rw [elimAny_same _ (.inl (not_lt.mp hr))]
    unfold partWayAny
    have : (c < r ∧ c.1 < i.1) ↔ (c < r ∧ c.1 < i.1 + 1) := by
      constructor
      · rintro ⟨a, b⟩; exact ⟨a, by omega⟩
      · rintro ⟨a, b⟩; exact ⟨a, by have : c.1 < r.1 := a; omega⟩
    rw [Nat.min_eq_right hr', Nat.min_eq_right (by omega : r.1 ≤ i.1 + 1)]
    simp only [this]

theorem factorise_flag {F : Arith K} {pivot ok : Bool} {s s' : Lu K} {a : List (List K)} (h : factorise F pivot s a = .ok (s', ok)) :
    s'.factorised = ok := by
  unfold factorise at h
  cases e : loop a.length (factoriseBody F pivot s.tol) (a, if pivot then List.range (sizeColumn a) else s.piv, true) with
  | ok t =>
    rw [e] at h
    obtain ⟨lu, piv, k⟩ := t
    change Out.ok (({ s with factorised := k, lu := lu, piv := piv } : Lu K), k) = _ at h
    simp only [Out.ok.injEq, Prod.mk.injEq] at h
    rw [← h.1, ← h.2]
  | _ => rw [e] at h; cases h

theorem factorise_of_closedAny (F : Arith K) (s : Lu K)
    (hl : ∀ r c, c < r → M r c = less (A r c) (fun k => M r k * M k c) 0 c.1 / M c c)
    (hu : ∀ r c, r ≤ c → M r c = less (A r c) (fun k => M r k * M k c) 0 r.1)
    (ha : ∀ i, F.lt (F.abs (M i i)) s.tol = false) :
    factorise F false s (mat A) = .ok (⟨true, s.tol, mat M, s.piv⟩, true) := by
  obtain ⟨t', h2, rfl⟩ := loop_inv (n := n) (body := factoriseBody F false s.tol) (s := (mat A, s.piv, true))
    (fun i t' => t' = (mat (partWayAny A M i), s.piv, true))
    (by
      congr 2
      funext r c
      unfold partWayAny
      rw [if_neg (by omega), Nat.zero_min]
      rfl) (by
      rintro i t' hi rfl
      refine ⟨_, ?_, rfl⟩
      rw [← partWayAny_step hl hu ⟨i, hi⟩]
      refine bodyF_ok (pivot := false) ⟨i, hi⟩ rfl ?_
      have := ha ⟨i, hi⟩
      unfold partWayAny
      rw [if_neg (by simp), Nat.min_self, ← hu _ _ le_rfl]
      exact this)
  unfold factorise
  rw [mat_length]
  simp only [Bool.false_eq_true, if_false]
  rw [h2]
  have : partWayAny A M n = M := by
    funext r c
    unfold partWayAny
    by_cases hc : c < r
    · rw [if_pos ⟨hc, c.2⟩]
    · rw [if_neg (by tauto), Nat.min_eq_right r.2.le, hu r c (not_lt.mp hc)]
  rw [this]
  rfl

end closed

/-! ### Powers of two -/

/-- Products of doubles that are not too small are multiples of the least double. -/
theorem least_product {p q : ℚ} (hp : binary64 p = .fin p) (hq : binary64 q = .fin q) (h : p * q = 0 ∨ 2 ^ (-969 : ℤ) ≤ |p * q|) :
    Least (p * q) := by
  rcases h with h | h
  · exact ⟨0, by rw [h]; simp⟩
  have h0 : p * q ≠ 0 := by
    intro h0
    rw [h0, abs_zero] at h
    exact absurd h (not_le.mpr (by positivity))
  have hp0 := left_ne_zero_of_mul h0
  have hq0 := right_ne_zero_of_mul h0
  have key : ∀ {x : ℚ}, binary64 x = .fin x → ∃ k : ℤ, x = k * 2 ^ lastDigit x := fun {x} hx => by
    have := near_of_double hx
    unfold near64 at this
    exact ⟨_, this.symm⟩
  obtain ⟨k, hk⟩ := key hp
  obtain ⟨l, hl⟩ := key hq
  have hsum : (-1074 : ℤ) ≤ lastDigit p + lastDigit q := by
    have h1 := Int.lt_zpow_succ_log_self (R := ℚ) (b := 2) (by norm_num) |p|
    have h2 := Int.lt_zpow_succ_log_self (R := ℚ) (b := 2) (by norm_num) |q|
    have h3 : (2 : ℚ) ^ (-969 : ℤ) < 2 ^ ((Int.log 2 |p| + 1) + (Int.log 2 |q| + 1)) := by
      rw [zpow_add₀ (by norm_num)]
      refine h.trans_lt ?_
      rw [abs_mul]
      exact mul_lt_mul'' (by exact_mod_cast h1) (by exact_mod_cast h2) (abs_nonneg _) (abs_nonneg _)
    have h4 := (zpow_lt_zpow_iff_right₀ (by norm_num : (1 : ℚ) < 2)).mp h3
    unfold lastDigit
    omega
  obtain ⟨m, hm⟩ := Int.eq_ofNat_of_zero_le (show 0 ≤ lastDigit p + lastDigit q + 1074 by omega)
  refine ⟨k * l * 2 ^ m, ?_⟩
  have e : (2 : ℚ) ^ lastDigit p * 2 ^ lastDigit q = 2 ^ m * 2 ^ (-1074 : ℤ) := by
    rw [← zpow_add₀ (by norm_num), ← zpow_natCast, ← zpow_add₀ (by norm_num)]
    congr 1
    omega
  calc p * q = (k * 2 ^ lastDigit p) * (l * 2 ^ lastDigit q) := by rw [← hk, ← hl]
    _ = k * l * (2 ^ lastDigit p * 2 ^ lastDigit q) := by ring
    _ = _ := by
      rw [e]
      push_cast
      ring

variable {fuse : Hist → Hist → Hist → Bool} {n : Nat}

theorem less_scaledF (e : ℕ) {p : ℚ} (hp : Least p) (h0 : Hist) (f g f' g' : Fin n → ℚ) (i j : Fin n → Hist) (a m : Nat)
    (h : ∀ c : Fin n, a ≤ c.1 → c.1 < a + m → f' c * g' c = 2 ^ e * (f c * g c) ∧ Least (f c * g c)) : ∀ {q' : ℚ},
    (less (.num (.fin (2 ^ e * p)) h0 : Fused binary64 fuse) (fun c => .num (.fin (f' c)) (i c) * .num (.fin (g' c)) (j c)) a m).get = .fin q' →
    ∃ q H, q' = 2 ^ e * q ∧ Least q ∧
      less (.num (.fin (2 ^ e * p)) h0 : Fused binary64 fuse) (fun c => .num (.fin (f' c)) (i c) * .num (.fin (g' c)) (j c)) a m =
        .num (.fin q') H ∧
      less (.num (.fin p) h0 : Fused binary64 fuse) (fun c => .num (.fin (f c)) (i c) * .num (.fin (g c)) (j c)) a m = .num (.fin q) H := by
  induction m with
  | zero =>
    intro q' hq
    obtain rfl := (Fl.fin.injEq _ _).mp hq
    exact ⟨p, h0, rfl, hp, rfl, rfl⟩
  | succ m ih =>
    intro q' hq
    by_cases hm : a + m < n
    · rw [less, dif_pos hm] at hq
      obtain ⟨v', w', h1, h2, h3⟩ := sub_fin (rnd := binary64) hq
      obtain ⟨v, H, rfl, hv, h4, h5⟩ := ih (fun c h1 h2 => h c h1 (by omega)) h1
      obtain ⟨e1, e2⟩ := h ⟨a + m, hm⟩ (by simp) (by simp)
      rw [h4] at h2
      have h2' : (if fuse H (i ⟨a + m, hm⟩) (j ⟨a + m, hm⟩) then Fl.fin else binary64) (2 ^ e * (f ⟨a + m, hm⟩ * g ⟨a + m, hm⟩)) =
          .fin w' := by
        rw [← e1]
        exact h2
      obtain ⟨w, rfl, hw, hw'⟩ : ∃ w, w' = 2 ^ e * w ∧ Least w ∧
          (if fuse H (i ⟨a + m, hm⟩) (j ⟨a + m, hm⟩) then Fl.fin else binary64) (f ⟨a + m, hm⟩ * g ⟨a + m, hm⟩) = .fin w := by
        by_cases hf : fuse H (i ⟨a + m, hm⟩) (j ⟨a + m, hm⟩) = true
        · rw [if_pos hf] at h2'
          exact ⟨_, ((Fl.fin.injEq _ _).mp h2').symm, e2, by rw [if_pos hf]⟩
        · rw [if_neg hf] at h2'
          obtain ⟨w, rfl, hw⟩ := binary64_scale e (.inl e2) h2'
          exact ⟨w, rfl, binary64_least hw, by rw [if_neg hf]; exact hw⟩
      rw [← mul_sub] at h3
      obtain ⟨q, rfl, hq'⟩ := binary64_scale e (.inl (hv.sub hw)) h3
      refine ⟨q, .op 1 H (.op 2 (i ⟨a + m, hm⟩) (j ⟨a + m, hm⟩)), rfl, binary64_least hq', ?_, ?_⟩
      · rw [less, dif_pos hm, h4]
        rw [h4] at hq
        exact congrArg (fun x => Fused.num x _) hq
      · rw [less, dif_pos hm, h5]
        have : Fl.sub binary64 (.fin v) ((if fuse H (i ⟨a + m, hm⟩) (j ⟨a + m, hm⟩) then Fl.fin else binary64)
            (f ⟨a + m, hm⟩ * g ⟨a + m, hm⟩)) = .fin q := by
          rw [hw']
          show binary64 (v + -w) = .fin q
          rw [← sub_eq_add_neg]
          exact hq'
        exact congrArg (fun x => Fused.num x _) this
    · rw [less, dif_neg hm] at hq
      obtain ⟨q, H, h1, h2, h3, h4⟩ := ih (fun c h1 h2 => h c h1 (by omega)) hq
      exact ⟨q, H, h1, h2, by rw [less, dif_neg hm]; exact h3, by rw [less, dif_neg hm]; exact h4⟩

theorem less_num (x : Fl) (h : Hist) (f : Fin n → Fused binary64 fuse) (a m : Nat) :
    less (.num x h) f a m = .num (less (.num x h) f a m).get (less (.num x h) f a m).hist := by
  induction m with
  | zero => rfl
  | succ m ih =>
    by_cases hm : a + m < n
    · rw [less, dif_pos hm]
      rfl
    · rw [less, dif_neg hm]
      exact ih

theorem less_startF {v : Fused binary64 fuse} {f : Fin n → Fused binary64 fuse} {a m : Nat} : ∀ {q : ℚ}, (less v f a m).get = .fin q →
    ∃ p, v.get = .fin p := by
  induction m with
  | zero => exact fun hq => ⟨_, hq⟩
  | succ m ih =>
    intro q hq
    by_cases hm : a + m < n
    · rw [less, dif_pos hm] at hq
      obtain ⟨_, _, h1, -, -⟩ := sub_fin (rnd := binary64) hq
      exact ih h1
    · rw [less, dif_neg hm] at hq
      exact ih hq

theorem less_nothingF (h0 : Hist) (f g : Fin n → ℚ) (i j : Fin n → Hist) (a m : Nat)
    (h : ∀ c : Fin n, a ≤ c.1 → c.1 < a + m → f c * g c = 0) :
    (less (.num (.fin 0) h0 : Fused binary64 fuse) (fun c => .num (.fin (f c)) (i c) * .num (.fin (g c)) (j c)) a m).get = .fin 0 := by
  induction m with
  | zero => rfl
  | succ m ih =>
    by_cases hm : a + m < n
    · rw [less, dif_pos hm]
      have h1 := ih fun c h1 h2 => h c h1 (by omega)
      show Fl.sub binary64 (Fused.get _) ((if fuse _ (i ⟨a + m, hm⟩) (j ⟨a + m, hm⟩) then Fl.fin else binary64)
        (f ⟨a + m, hm⟩ * g ⟨a + m, hm⟩)) = .fin 0
      rw [h1, h ⟨a + m, hm⟩ (by simp) (by simp)]
      have : ∀ b : Bool, (if b = true then Fl.fin else binary64) 0 = .fin 0 := fun b => by cases b <;> [exact zero64; rfl]
      rw [this]
      show binary64 (0 + -0) = .fin 0
      rw [neg_zero, add_zero]
      exact zero64
    · rw [less, dif_neg hm]
      exact ih fun c h1 h2 => h c h1 (by omega)

theorem div64F {a b c : ℚ} {h k : Hist} (hb : b ≠ 0) (hc : binary64 (a / b) = .fin c) :
    (.num (.fin a) h / .num (.fin b) k : Fused binary64 fuse) = .num (.fin c) (.op 3 h k) :=
  congrArg (fun x => Fused.num x _) (div64 hb hc)

/-! ### The property -/

/-- C237: the direct solver without pivoting, with doubles, where any of the products that are subtracted may be fused. Each equation is
multiplied by its power of two `2 ^ κ r`, right hand side included, and the same products are fused. If this system is accepted and solved
with finite factors and a finite solution, then so is the one without the powers of two, with the same solution to the last bit and the
factors that belong to it. The pivots without the powers are to reach the tolerance, products in the smaller system are to be multiples of
the least double, and multipliers of rows with different powers are not to underflow. -/
theorem c237_equations (s s' u : Lu (Fused binary64 fuse)) {t : ℚ} (ht : 0 < t) (hu : u.tol.get = .fin t)
    (κ : Fin n → ℕ) (A : Fin n → Fin n → ℚ) (h : Fin n → Fin n → Hist) (hA : ∀ r c, binary64 (A r c) = .fin (A r c))
    (hf : factorise (Fused.arith binary64 fuse) false s (mat fun r c => (.num (.fin (2 ^ κ r * A r c)) (h r c) : Fused binary64 fuse)) =
      .ok (s', true))
    (M : Fin n → Fin n → ℚ) (H : Fin n → Fin n → Hist) (hM : s'.lu = mat fun r c => (.num (.fin (M r c)) (H r c) : Fused binary64 fuse))
    (hpiv : ∀ i, t ≤ |M i i / 2 ^ κ i|)
    (hprod : ∀ r c k, k < r → k < c → Least (unscaled κ M r k * unscaled κ M k c))
    (hquot : ∀ r c, c < r → Survives ((κ r : ℤ) - κ c) (M r c) ∨ (A r c = 0 ∧ ∀ k, k < c → M r k * M k c = 0)) :
    factorise (Fused.arith binary64 fuse) false u (mat fun r c => (.num (.fin (A r c)) (h r c) : Fused binary64 fuse)) =
      .ok (⟨true, u.tol, mat fun r c => .num (.fin (unscaled κ M r c)) (H r c), u.piv⟩, true) ∧
    ∀ (b x : Fin n → ℚ) (k X : Fin n → Hist) (x0 x0' : List (Fused binary64 fuse)), (∀ r, binary64 (b r) = .fin (b r)) →
      Lu.solve false s' x0 (some (vec fun r => (.num (.fin (2 ^ κ r * b r)) (k r) : Fused binary64 fuse))) =
        .ok (vec (fun r => (.num (.fin (x r)) (X r) : Fused binary64 fuse)), true, 1) →
      (∀ (y : Fin n → ℚ) (Y : Fin n → Hist), (∀ r, .num (.fin (y r)) (Y r) =
          less (.num (.fin (2 ^ κ r * b r)) (k r) : Fused binary64 fuse) (fun c => .num (.fin (M r c)) (H r c) * .num (.fin (y c)) (Y c)) 0 r.1) →
        ∀ r c, c < r → Least (unscaled κ M r c * (y c / 2 ^ κ c))) →
      (∀ r c, r < c → Least (unscaled κ M r c * x c)) →
      Lu.solve false ⟨true, u.tol, mat fun r c => .num (.fin (unscaled κ M r c)) (H r c), u.piv⟩ x0'
          (some (vec fun r => (.num (.fin (b r)) (k r) : Fused binary64 fuse))) =
        .ok (vec (fun r => (.num (.fin (x r)) (X r) : Fused binary64 fuse)), true, 1) := by
  have hp : ∀ k : ℕ, (0 : ℚ) < 2 ^ k := fun k => by positivity
  have hd0 : ∀ i, M i i ≠ 0 := fun i h0 => by
    have := hpiv i
    rw [h0, zero_div, abs_zero] at this
    linarith
  have hcl := factorise_closed _ s s' _ _ hf hM
  have hdiag : ∀ i, unscaled κ M i i = M i i / 2 ^ κ i := fun i => by
    unfold unscaled
    rw [if_neg (lt_irrefl _)]
  have hd : ∀ i, unscaled κ M i i ≠ 0 := fun i => by
    rw [hdiag]
    exact div_ne_zero (hd0 i) (hp _).ne'
  have num : ∀ (r c : Fin n) (m : Nat), m ≤ r.1 → m ≤ c.1 → ∀ q',
      (less (.num (.fin (2 ^ κ r * A r c)) (h r c) : Fused binary64 fuse)
        (fun k => .num (.fin (M r k)) (H r k) * .num (.fin (M k c)) (H k c)) 0 m).get = .fin q' →
      ∃ q G, q' = 2 ^ κ r * q ∧ Least q ∧
        less (.num (.fin (2 ^ κ r * A r c)) (h r c) : Fused binary64 fuse)
          (fun k => .num (.fin (M r k)) (H r k) * .num (.fin (M k c)) (H k c)) 0 m = .num (.fin q') G ∧
        less (.num (.fin (A r c)) (h r c) : Fused binary64 fuse)
          (fun k => .num (.fin (unscaled κ M r k)) (H r k) * .num (.fin (unscaled κ M k c)) (H k c)) 0 m = .num (.fin q) G := by
    intro r c m hr hc q' hq
    refine less_scaledF (κ r) (binary64_least (hA r c)) (h r c) (fun k => unscaled κ M r k) (fun k => unscaled κ M k c) (fun k => M r k)
      (fun k => M k c) (fun k => H r k) (fun k => H k c) 0 m (fun k _ hk => ?_) hq
    have h1 : k < r := show k.1 < r.1 by omega
    have h2 : k < c := show k.1 < c.1 by omega
    exact ⟨scaled_product κ M h1 (unscaled_upper κ M h2.le), hprod r c k h1 h2⟩
  have hfac := factorise_of_closedAny (A := fun r c => (.num (.fin (A r c)) (h r c) : Fused binary64 fuse))
    (M := fun r c => .num (.fin (unscaled κ M r c)) (H r c)) (Fused.arith binary64 fuse) u (by
      intro r c hcr
      have hcr' : c.1 < r.1 := hcr
      have h1 := (hcl r c).1 hcr
      obtain ⟨q', e1, e2⟩ := div_fin (rnd := binary64) (hd0 c) (congrArg Fused.get h1).symm
      obtain ⟨q, G, rfl, -, e3, e4⟩ := num r c c.1 hcr'.le le_rfl q' e1
      have e5 : H r c = .op 3 G (H c c) := by
        have := congrArg Fused.hist h1
        rw [e3] at this
        exact this
      rw [e4, e5]
      symm
      refine div64F (hd c) ?_
      rw [show unscaled κ M r c = 2 ^ (-((κ r : ℤ) - κ c)) * M r c by unfold unscaled; rw [if_pos hcr]]
      refine quotient_scaled (d := (κ r : ℤ) - κ c) ?_ ?_
      · rw [← e2, unscaled_upper κ M (le_refl c), sub_eq_add_neg, zpow_add₀ (by norm_num), zpow_neg, zpow_natCast, zpow_natCast]
        congr 1
        have := (hp (κ c)).ne'
        have := hd c
        field_simp
      · refine (hquot r c hcr).imp id fun h0 => ?_
        have : q = 0 := by
          have h2 := less_nothingF (fuse := fuse) (h r c) (fun k => unscaled κ M r k) (fun k => unscaled κ M k c) (fun k => H r k)
            (fun k => H k c) 0 c.1 (fun k _ hk => by
              have hk' : k < c := show k.1 < c.1 by omega
              have := h0.2 k hk'
              rw [scaled_product κ M (hk'.trans hcr) (unscaled_upper κ M hk'.le)] at this
              exact (mul_eq_zero.mp this).resolve_left (hp _).ne')
          rw [h0.1] at e4
          rw [e4] at h2
          exact (Fl.fin.injEq _ _).mp h2
        rw [this, zero_div]) (by
      intro r c hrc
      have hrc' : r.1 ≤ c.1 := hrc
      have h1 := (hcl r c).2 hrc
      obtain ⟨q, G, e1, -, e3, e4⟩ := num r c r.1 le_rfl hrc' _ (congrArg Fused.get h1).symm
      rw [e4]
      have e5 : H r c = G := by
        have := congrArg Fused.hist h1
        rw [e3] at this
        exact this
      rw [unscaled_upper κ M hrc] at e1
      rw [e5, mul_left_cancel₀ (hp _).ne' e1]) (by
      intro i
      show Fl.lt (Fl.abs (.fin _)) u.tol.get = false
      rw [hu]
      simp only [Fl.lt, Fl.abs, decide_eq_false_iff_not, not_lt, hdiag]
      exact hpiv i)
  refine ⟨hfac, fun b x k X x0 x0' hb hx hy0 hx0 => ?_⟩
  obtain ⟨y', x', k1, k2, k3⟩ := solve_any false s' _ (factorise_flag hf) hM 1 (by simp) (by simp) (fun r => .num (.fin (2 ^ κ r * b r)) (k r)) x0
  have hx' : x' = fun r => .num (.fin (x r)) (X r) := by
    rw [hx] at k1
    simp only [Out.ok.injEq, Prod.mk.injEq, and_true] at k1
    exact (vec_inj.mp k1).symm
  subst hx'
  obtain ⟨y, z, j1, j2, j3⟩ := solve_any false (⟨true, u.tol, mat fun r c => .num (.fin (unscaled κ M r c)) (H r c), u.piv⟩ :
    Lu (Fused binary64 fuse)) _ rfl rfl 1 (by simp) (by simp) (fun r => .num (.fin (b r)) (k r)) x0'
  simp only [Equiv.Perm.coe_one, id] at k2 j2
  rw [j1]
  have hyf : ∀ r, ∃ q Q, y' r = .num (.fin q) Q := fun r => by
    obtain ⟨q', e1, -⟩ := div_fin (rnd := binary64) (hd0 r) (congrArg Fused.get (k3 r)).symm
    obtain ⟨q, e2⟩ := less_startF e1
    refine ⟨q, (y' r).hist, ?_⟩
    have e3 := less_num (fuse := fuse) (.fin (2 ^ κ r * b r)) (k r) (fun c => .num (.fin (M r c)) (H r c) * y' c) 0 r.1
    rw [← k2 r] at e3
    rw [← e2]
    exact e3
  choose w W hw using hyf
  obtain rfl : y' = fun r => .num (.fin (w r)) (W r) := funext hw
  have hsc : ∀ r, w r = 2 ^ κ r * (w r / 2 ^ κ r) := fun r => by field_simp
  have hun := hy0 w W k2
  have hy : ∀ m, ∀ r : Fin n, r.1 = m → y r = .num (.fin (w r / 2 ^ κ r)) (W r) ∧ Least (w r / 2 ^ κ r) := by
    intro m
    induction m using Nat.strong_induction_on with
    | _ m ih =>
      rintro r rfl
      obtain ⟨q, G, e1, e2, e3', e3⟩ := less_scaledF (fuse := fuse) (κ r) (binary64_least (hb r)) (k r) (fun c => unscaled κ M r c)
        (fun c => w c / 2 ^ κ c) (fun c => M r c) w (fun c => H r c) W 0 r.1 (fun c _ hc => by
          have hc' : c < r := show c.1 < r.1 by omega
          exact ⟨scaled_product κ M hc' (hsc c), hun r c hc'⟩) (congrArg Fused.get (k2 r)).symm
      have e4 : w r / 2 ^ κ r = q := by rw [e1]; field_simp
      have e5 : W r = G := by
        have := congrArg Fused.hist (k2 r)
        rw [e3'] at this
        exact this
      rw [e4, e5]
      refine ⟨?_, e2⟩
      rw [j2 r, ← e3]
      refine less_congr fun c _ hc => ?_
      rw [(ih c.1 (by omega) c rfl).1]
  have hxz : ∀ m, ∀ r : Fin n, n - 1 - r.1 = m → z r = .num (.fin (x r)) (X r) := by
    intro m
    induction m using Nat.strong_induction_on with
    | _ m ih =>
      rintro r rfl
      have k3r := k3 r
      beta_reduce at k3r
      obtain ⟨q', e1, e2⟩ := div_fin (rnd := binary64) (hd0 r) (congrArg Fused.get k3r).symm
      rw [hsc r] at e1 k3r
      obtain ⟨q, G, rfl, -, e3', e3⟩ := less_scaledF (fuse := fuse) (κ r) (hy _ r rfl).2 (W r) (fun c => unscaled κ M r c) x
        (fun c => M r c) x (fun c => H r c) X (r.1 + 1) (n - (r.1 + 1))
        (fun c hc _ => by
          have hc' : r < c := hc
          exact ⟨by rw [unscaled_upper κ M hc'.le, mul_assoc], hx0 r c hc'⟩) e1
      have e4 : less (y r) (fun c => .num (.fin (unscaled κ M r c)) (H r c) * z c) (r.1 + 1) (n - (r.1 + 1)) = .num (.fin q) G := by
        rw [(hy _ r rfl).1, ← e3]
        refine less_congr fun c hc _ => ?_
        rw [ih (n - 1 - c.1) (by have := c.2; omega) c rfl]
      have e5 : X r = .op 3 G (H r r) := by
        have := congrArg Fused.hist k3r
        rw [e3'] at this
        exact this
      rw [j3 r, e4, e5]
      refine div64F (hd r) ?_
      rw [← e2, unscaled_upper κ M (le_refl r), mul_div_mul_left _ _ (hp _).ne']
  rw [show z = fun r => .num (.fin (x r)) (X r) from funext fun r => hxz _ r rfl]

/-- C237: factors of stored numbers are stored numbers, so that finite factors are as in the hypotheses of `c237_equations`. -/
theorem c237_stored (s s' : Lu (Fused binary64 fuse)) {t : ℚ} (ht : 0 < t) (hs : s.tol.get = .fin t) (A : Fin n → Fin n → Fl)
    (h : Fin n → Fin n → Hist)
    (hf : factorise (Fused.arith binary64 fuse) false s (mat fun r c => (.num (A r c) (h r c) : Fused binary64 fuse)) = .ok (s', true)) :
    ∃ (M : Fin n → Fin n → Fl) (H : Fin n → Fin n → Hist), s'.lu = mat fun r c => (.num (M r c) (H r c) : Fused binary64 fuse) := by
  obtain ⟨p, N, st, ok, e1, -⟩ := factorise_fused rounds_binary64 (by norm_num) false s ht hs fun r c =>
    (.num (A r c) (h r c) : Fused binary64 fuse)
  rw [hf] at e1
  simp only [Out.ok.injEq, Prod.mk.injEq] at e1
  have hN : s'.lu = mat N := by rw [e1.1]
  have hcl := factorise_closed _ s s' _ _ hf hN
  refine ⟨fun r c => (N r c).get, fun r c => (N r c).hist, ?_⟩
  rw [hN]
  congr 1
  funext r c
  show N r c = .num (N r c).get (N r c).hist
  by_cases hc : c < r
  · rw [(hcl r c).1 hc]
    rfl
  · have e2 := less_num (fuse := fuse) (A r c) (h r c) (fun k => N r k * N k c) 0 r.1
    rw [← (hcl r c).2 (not_lt.mp hc)] at e2
    exact e2

/-- C237: products of doubles of at least 2 ^ -969 meet the condition on products, and so do zeros. -/
theorem c237_products {p q : ℚ} (hp : binary64 p = .fin p) (hq : binary64 q = .fin q) (h : p * q = 0 ∨ 2 ^ (-969 : ℤ) ≤ |p * q|) :
    Least (p * q) := least_product hp hq h

/-- C237: all equations times the same power of two. Then the multipliers are the same, and only products need a condition. -/
theorem c237_multiple (s s' u : Lu (Fused binary64 fuse)) {t : ℚ} (ht : 0 < t) (hu : u.tol.get = .fin t)
    (e : ℕ) (A : Fin n → Fin n → ℚ) (h : Fin n → Fin n → Hist) (hA : ∀ r c, binary64 (A r c) = .fin (A r c))
    (hf : factorise (Fused.arith binary64 fuse) false s (mat fun r c => (.num (.fin (2 ^ e * A r c)) (h r c) : Fused binary64 fuse)) =
      .ok (s', true))
    (M : Fin n → Fin n → ℚ) (H : Fin n → Fin n → Hist) (hM : s'.lu = mat fun r c => (.num (.fin (M r c)) (H r c) : Fused binary64 fuse))
    (hpiv : ∀ i, t ≤ |M i i / 2 ^ e|) (hprod : ∀ r c k, k < r → k < c → Least (M r k * (M k c / 2 ^ e))) :
    factorise (Fused.arith binary64 fuse) false u (mat fun r c => (.num (.fin (A r c)) (h r c) : Fused binary64 fuse)) =
      .ok (⟨true, u.tol, mat fun r c => .num (.fin (if c < r then M r c else M r c / 2 ^ e)) (H r c), u.piv⟩, true) := by
  have h0 : unscaled (fun _ => e) M = fun r c => if c < r then M r c else M r c / 2 ^ e := by
    funext r c
    unfold unscaled
    simp
  have := (c237_equations s s' u ht hu (fun _ => e) A h hA hf M H hM hpiv (fun r c k h1 h2 => by
    have h3 : unscaled (fun _ => e) M r k = M r k := by rw [h0]; exact if_pos h1
    have h4 : unscaled (fun _ => e) M k c = M k c / 2 ^ e := by rw [h0]; exact if_neg (lt_asymm h2)
    rw [h3, h4]
    exact hprod r c k h1 h2) (fun r c _ => .inl (.inl (by simp)))).1
  rw [h0] at this
  exact this

/-- C237: a fused product that is no multiple of the least double: the last pivot is 4 / 2 ^ 1074, while that of the matrix times two is
7 / 2 ^ 1074. -/
theorem c237_underflow : ∃ s : Lu (Fused binary64 fun _ _ _ => true), s.tol.get = .fin (1 / 2 ^ 1074) ∧
    (factorise (Fused.arith binary64 _) false s [[inp 0 1, inp 1 (3 / 2 ^ 1074)], [inp 2 (1 / 2), inp 3 (5 / 2 ^ 1074)]] >>=
        fun r => pure (r.1.lu.map fun l => l.map Fused.get, r.2)) =
      .ok ([[.fin 1, .fin (3 / 2 ^ 1074)], [.fin (1 / 2), .fin (4 / 2 ^ 1074)]], true) ∧
    (factorise (Fused.arith binary64 _) false s [[inp 0 2, inp 1 (6 / 2 ^ 1074)], [inp 2 1, inp 3 (10 / 2 ^ 1074)]] >>=
        fun r => pure (r.1.lu.map fun l => l.map Fused.get, r.2)) =
      .ok ([[.fin 2, .fin (6 / 2 ^ 1074)], [.fin (1 / 2), .fin (7 / 2 ^ 1074)]], true) :=
  ⟨⟨false, inp 0 (1 / 2 ^ 1074), [], []⟩, by decide +kernel⟩

/-! ### Examples -/

deriving instance DecidableEq for Hist
deriving instance DecidableEq for Fused

/-- The factors of the rows (3, 5) and (1, 2), the second of which is multiplied by 8, when the product is fused. -/
def eighthFused (r c : Fin 2) : ℚ := ![![3, 5], ![6004799503160661 / 2 ^ 51, 6004799503160663 / 2 ^ 51]] r c

/-- How they were computed. -/
def eighthHist (r c : Fin 2) : Hist :=
  ![![.input 0, .input 0], ![.op 3 (.input 0) (.input 0), .op 1 (.input 0) (.op 2 (.op 3 (.input 0) (.input 0)) (.input 0))]] r c

/-- A solver that fuses all products. -/
def freshFusing : Lu (Fused binary64 fun _ _ _ => true) := ⟨false, (Fused.arith binary64 _).tol, [], []⟩

example : ∃ s', factorise (Fused.arith binary64 fun _ _ _ => true) false freshFusing
      (mat fun r c : Fin 2 => .num (.fin (2 ^ (![0, 3] : Fin 2 → ℕ) r * (![![3, 5], ![1, 2]] : Fin 2 → Fin 2 → ℚ) r c)) (.input 0)) =
        .ok (s', true) ∧
    s'.lu = mat (fun r c => .num (.fin (eighthFused r c)) (eighthHist r c)) :=
  ⟨⟨true, freshFusing.tol, mat (fun r c => .num (.fin (eighthFused r c)) (eighthHist r c)), []⟩, by decide +kernel, rfl⟩

example : ∃ t : ℚ, 0 < t ∧ freshFusing.tol.get = .fin t := by
  refine ⟨_, ?_, rfl⟩
  decide +kernel

/-- With a rounded product the last pivot is another one. -/
example : (factorise (Fused.arith binary64 fun _ _ _ => false) false ⟨false, (Fused.arith binary64 _).tol, [], []⟩
      (mat fun r c : Fin 2 => .num (.fin (2 ^ (![0, 3] : Fin 2 → ℕ) r * (![![3, 5], ![1, 2]] : Fin 2 → Fin 2 → ℚ) r c)) (.input 0)) >>=
        fun r => pure (r.1.lu.map fun l => l.map Fused.get, r.2)) =
    .ok ([[.fin 3, .fin 5], [.fin (6004799503160661 / 2 ^ 51), .fin (750599937895083 / 2 ^ 48)]], true) := by decide +kernel

example : (∀ r c k : Fin 2, k < r → k < c → Least (unscaled ![0, 3] eighthFused r k * unscaled ![0, 3] eighthFused k c)) ∧
    ∀ r c : Fin 2, c < r → Survives (((![0, 3] : Fin 2 → ℕ) r : ℤ) - (![0, 3] : Fin 2 → ℕ) c) (eighthFused r c) := by
  refine ⟨fun r c k h1 h2 => least_product ?_ ?_ (.inr ?_), by unfold Survives; decide +kernel⟩
  all_goals revert r c k; decide +kernel

example : ∀ i : Fin 2, (1 / 2 ^ 20 : ℚ) ≤ |eighthFused i i / 2 ^ (![0, 3] : Fin 2 → ℕ) i| := by decide +kernel

end Disa.Props
