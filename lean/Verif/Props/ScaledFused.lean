import Verif.Props.FusedSolveSigns
import Verif.Props.LuPowersFused
import Verif.Props.MonotoneFused

/-!
# Property C238: equations times powers of two in the fixed point solvers with fused operations
-/

namespace Disa.Props

open Disa Spec Dense Num Sparse Iterative Fused

variable {fuse : Hist → Hist → Hist → Bool} {sqrt : Fused binary64 fuse → Fused binary64 fuse} {n : Nat} {κ : Nat → ℕ}
  {m m' : Sparse (Fused binary64 fuse)}

/-! ### Rows -/

/-- A stored number times a power of two, without rounding. -/
def raise (e : ℕ) : Fused binary64 fuse → Fused binary64 fuse
  | .num (.fin q) h => .num (.fin (2 ^ e * q)) h
  | x => x

/-- Two square matrices that programs can make, which store the same positions. The rows of the second are those of the first times powers
of two. Elements in the same place have the same label. -/
structure ScaledF (n : Nat) (κ : Nat → ℕ) (m m' : Sparse (Fused binary64 fuse)) : Prop where
  built : Built false m
  built' : Built false m'
  rows : m.sizeRow = n
  columns : m.colSize = n
  rows' : m'.sizeRow = n
  columns' : m'.colSize = n
  elements : ∀ i j, i < n → j < n → ∃ o : Option (ℚ × Hist), Spec.lookup m i j = .ok (o.map fun v => .num (.fin v.1) v.2) ∧
    Spec.lookup m' i j = .ok (o.map fun v => .num (.fin (2 ^ κ i * v.1)) v.2)
  diagonal : ∀ i, i < n → ∃ d h, Spec.lookup m i i = .ok (some (.num (.fin d) h))

theorem lookup_raise (e : ℕ) (r : List (Nat × Fused binary64 fuse)) (j : Nat) :
    (r.map fun x => (x.1, raise e x.2)).lookup j = (r.lookup j).map (raise e) := by
  induction r with
  | nil => rfl
  | cons x r ih =>
    rw [List.map_cons]
    by_cases h : j = x.1
    · subst h
      simp [List.lookup]
    · have : (j == x.1) = false := by simpa using h
      rw [show x = (x.1, x.2) from rfl]
      simp only [List.lookup, this]
      exact ih

theorem ScaledF.reps (h : ScaledF n κ m m') : ∃ L L' : Rows (Fused binary64 fuse), m.Rep L ∧ m'.Rep L' ∧ Bounded n L ∧ Bounded n L' ∧
    L.length = n ∧ L'.length = n ∧ (∀ i, i < n → row L' i = (row L i).map fun x => (x.1, raise (κ i) x.2)) ∧
    (∀ i, i < n → ∀ x ∈ row L i, ∃ q k, x.1 < n ∧ x.2 = .num (.fin q) k ∧ Spec.lookup m i x.1 = .ok (some (.num (.fin q) k))) ∧
    ∀ i, i < n → ∃ d k, entry L i i = some (.num (.fin d) k) ∧ entry L' i i = some (.num (.fin (2 ^ κ i * d)) k) := by
  obtain ⟨L, h1, h2, -, h4⟩ := inv_built h.built
  obtain ⟨L', k1, k2, -, k4⟩ := inv_built h.built'
  have e1 : L.length = n := by rw [← h1.sizeRow]; exact h.rows
  have e2 : L'.length = n := by rw [← k1.sizeRow]; exact h.rows'
  have b1 : Bounded n L := by rw [← h.columns]; exact h4 rfl
  have b2 : Bounded n L' := by rw [← h.columns']; exact k4 rfl
  have hrow : ∀ i, i < n → row L' i = (row L i).map fun x => (x.1, raise (κ i) x.2) := by
    intro i hi
    refine row_of_lookups (k2 i) ?_ fun j => ?_
    · have : keys ((row L i).map fun x => (x.1, raise (κ i) x.2)) = keys (row L i) := by
        unfold keys
        rw [List.map_map]
        rfl
      rw [this]
      exact h2 i
    · by_cases hj : j < n
      swap
      · have none : ∀ (M : Rows (Fused binary64 fuse)), Bounded n M → (row M i).lookup j = none := fun M hM => by
          rw [lookup_eq_none]
          intro hk
          obtain ⟨e, e1, rfl⟩ := List.mem_map.mp hk
          exact hj (hM i e e1)
        rw [lookup_raise, none L b1, none L' b2]
        rfl
      obtain ⟨o, o1, o2⟩ := h.elements i j hi hj
      rw [lookup_ok h1 (by omega), Out.ok.injEq] at o1
      rw [lookup_ok k1 (by omega), Out.ok.injEq] at o2
      rw [lookup_raise]
      show entry L' i j = (entry L i j).map _
      rw [o2, o1, Option.map_map]
      rfl
  refine ⟨L, L', h1, k1, b1, b2, e1, e2, hrow, fun i hi x hx => ?_, fun i hi => ?_⟩
  · have hj := b1 i x hx
    obtain ⟨o, o1, -⟩ := h.elements i x.1 hi hj
    have o1' := o1
    rw [lookup_ok h1 (by omega), Out.ok.injEq] at o1
    have hl : entry L i x.1 = some x.2 := (lookup_eq_some (h2 i)).mpr hx
    rw [hl] at o1
    cases o with
    | none => cases o1
    | some v => exact ⟨v.1, v.2, hj, Option.some.inj o1, o1'⟩
  · obtain ⟨d, k, d1⟩ := h.diagonal i hi
    rw [lookup_ok h1 (by omega), Out.ok.injEq] at d1
    refine ⟨d, k, d1, ?_⟩
    show (row L' i).lookup i = _
    rw [hrow i hi, lookup_raise]
    show (entry L i i).map _ = _
    rw [d1]
    rfl

/-! ### Multiples of the least double -/

/-- The number is a multiple of the smallest positive double times a power of two. -/
def Grid (D : ℕ) (q : ℚ) : Prop := Least (q / 2 ^ D)

theorem grid_zero (D : ℕ) : Grid D 0 := ⟨0, by simp⟩

theorem grid_nought {q : ℚ} (h : Least q) : Grid 0 q := by
  unfold Grid
  rwa [pow_zero, div_one]

variable {D : ℕ} {p q : ℚ}

theorem Grid.add (hp : Grid D p) (hq : Grid D q) : Grid D (p + q) := by
  unfold Grid at *
  rw [add_div]
  exact Least.add hp hq

theorem Grid.sub (hp : Grid D p) (hq : Grid D q) : Grid D (p - q) := by
  unfold Grid at *
  rw [sub_div]
  exact Least.sub hp hq

theorem Grid.eq (h : Grid D q) : ∃ k : ℤ, q = k * 2 ^ ((D : ℤ) - 1074) := by
  obtain ⟨k, hk⟩ := h
  refine ⟨k, ?_⟩
  rw [div_eq_iff (by positivity)] at hk
  rw [hk, sub_eq_add_neg, zpow_add₀ (by norm_num), zpow_natCast]
  ring

theorem Grid.least (h : Grid D q) : Least q := by
  obtain ⟨k, hk⟩ := h
  rw [div_eq_iff (by positivity)] at hk
  exact ⟨k * 2 ^ D, by rw [hk]; push_cast; ring⟩

/-- Rounding does not leave the grid. -/
theorem Grid.round {r : ℚ} (h : Grid D q) (hr : binary64 q = .fin r) : Grid D r := by
  have hn : near64 q = r := by
    rw [binary64_near] at hr
    split at hr
    · exact (Fl.fin.injEq _ _).mp hr
    · cases hr
  obtain ⟨k, hk⟩ := h.eq
  by_cases hd : lastDigit q ≤ (D : ℤ) - 1074
  · rw [near64_multiple hd hk] at hn
    rwa [← hn]
  · obtain ⟨t, ht⟩ := Int.eq_ofNat_of_zero_le (show 0 ≤ lastDigit q - ((D : ℤ) - 1074) by omega)
    refine ⟨nearestEven (q / 2 ^ lastDigit q) * 2 ^ t, ?_⟩
    rw [← hn, div_eq_iff (by positivity)]
    unfold near64
    have : (2 : ℚ) ^ lastDigit q = 2 ^ t * 2 ^ (-1074 : ℤ) * 2 ^ D := by
      rw [← zpow_natCast, ← zpow_natCast, ← zpow_add₀ (by norm_num), ← zpow_add₀ (by norm_num)]
      congr 1
      omega
    push_cast
    rw [mul_assoc, mul_assoc]
    congr 1
    rw [← mul_assoc]
    exact this

theorem Grid.half (h : Grid D q) (hD : 1 ≤ D) : Least (3 / 2 * q) := by
  obtain ⟨k, hk⟩ := h
  rw [div_eq_iff (by positivity)] at hk
  obtain ⟨d, rfl⟩ := Nat.exists_eq_add_of_le hD
  exact ⟨3 * k * 2 ^ d, by rw [hk]; push_cast; ring⟩

/-! ### One new value -/

theorem add_scaledF (D e : ℕ) {p a z q' : ℚ} (hp : Grid D p) (H h : Hist) {y : Fused binary64 fuse} (hy : y.get = .fin z)
    (hl : Grid D (a * z)) (hq : (.num (.fin (2 ^ e * p)) H + .num (.fin (2 ^ e * a)) h * y : Fused binary64 fuse).get = .fin q') :
    ∃ q, q' = 2 ^ e * q ∧ Grid D q ∧
      (.num (.fin (2 ^ e * p)) H + .num (.fin (2 ^ e * a)) h * y : Fused binary64 fuse) = .num (.fin (2 ^ e * q)) (.op 0 H (.op 2 h y.hist)) ∧
      (.num (.fin p) H + .num (.fin a) h * y : Fused binary64 fuse) = .num (.fin q) (.op 0 H (.op 2 h y.hist)) := by
  have hq' : Fl.add binary64 (.fin (2 ^ e * p)) (Fl.mul (if fuse H h y.hist then .fin else binary64) (.fin (2 ^ e * a)) y.get) = .fin q' := hq
  obtain ⟨v, w', h1, h2, h3⟩ := add_fin (rnd := binary64) hq'
  obtain rfl := (Fl.fin.injEq _ _).mp h1
  rw [hy] at h2
  have h2' : (if fuse H h y.hist then Fl.fin else binary64) (2 ^ e * (a * z)) = .fin w' := by
    rw [← mul_assoc]
    exact h2
  obtain ⟨w, rfl, hw, hw'⟩ : ∃ w, w' = 2 ^ e * w ∧ Grid D w ∧ (if fuse H h y.hist then Fl.fin else binary64) (a * z) = .fin w := by
    by_cases hf : fuse H h y.hist = true
    · rw [if_pos hf] at h2'
      exact ⟨_, ((Fl.fin.injEq _ _).mp h2').symm, hl, by rw [if_pos hf]⟩
    · rw [if_neg hf] at h2'
      obtain ⟨w, rfl, hw⟩ := binary64_scale e (.inl hl.least) h2'
      exact ⟨w, rfl, hl.round hw, by rw [if_neg hf]; exact hw⟩
  rw [← mul_add] at h3
  obtain ⟨q, rfl, hs⟩ := binary64_scale e (.inl (hp.add hw).least) h3
  refine ⟨q, rfl, (hp.add hw).round hs, congrArg (fun x => Fused.num x _) hq', ?_⟩
  have : Fl.add binary64 (.fin p) (Fl.mul (if fuse H h y.hist then .fin else binary64) (.fin a) y.get) = .fin q := by
    rw [hy]
    show Fl.add binary64 (.fin p) ((if fuse H h y.hist then Fl.fin else binary64) (a * z)) = .fin q
    rw [hw']
    exact hs
  exact congrArg (fun x => Fused.num x _) this

theorem fold_startF {i : Nat} {r : List (Nat × Fused binary64 fuse)} {y : Fin n → Fused binary64 fuse} : ∀ {v : Fused binary64 fuse} {q : ℚ},
    (r.foldl (fun v e => if e.1 = i then v else v + e.2 * (vec y).getD e.1 0) v).get = .fin q → ∃ p, v.get = .fin p := by
  induction r with
  | nil => exact fun h => ⟨_, h⟩
  | cons x r ih =>
    intro v q h
    rw [List.foldl_cons] at h
    obtain ⟨p, hp⟩ := ih h
    split at hp
    · exact ⟨p, hp⟩
    · obtain ⟨a, _, h1, -, -⟩ := add_fin (rnd := binary64) hp
      exact ⟨a, h1⟩

theorem fold_numF (i : Nat) (r : List (Nat × Fused binary64 fuse)) (y : Fin n → Fused binary64 fuse) : ∀ (x : Fl) (h : Hist),
    ∃ x' h', r.foldl (fun v e => if e.1 = i then v else v + e.2 * (vec y).getD e.1 0) (.num x h) = .num x' h' := by
  induction r with
  | nil => exact fun x h => ⟨x, h, rfl⟩
  | cons e r ih =>
    intro x h
    rw [List.foldl_cons]
    split
    · exact ih x h
    · exact ih _ _

theorem fold_scaledF (D e : ℕ) (i : Nat) (y : Fin n → Fused binary64 fuse) (r : List (Nat × Fused binary64 fuse))
    (hr : ∀ x ∈ r, ∃ q k, x.2 = .num (.fin q) k ∧ (x.1 ≠ i → ∃ z, ((vec y).getD x.1 0).get = .fin z ∧ Grid D (q * z))) :
    ∀ {p : ℚ} (_ : Grid D p) (H : Hist) {q' : ℚ},
    ((r.map fun x => (x.1, raise e x.2)).foldl (fun v e => if e.1 = i then v else v + e.2 * (vec y).getD e.1 0)
      (.num (.fin (2 ^ e * p)) H : Fused binary64 fuse)).get = .fin q' →
    ∃ q G, Grid D q ∧
      (r.map fun x => (x.1, raise e x.2)).foldl (fun v e => if e.1 = i then v else v + e.2 * (vec y).getD e.1 0)
        (.num (.fin (2 ^ e * p)) H : Fused binary64 fuse) = .num (.fin (2 ^ e * q)) G ∧
      r.foldl (fun v e => if e.1 = i then v else v + e.2 * (vec y).getD e.1 0) (.num (.fin p) H : Fused binary64 fuse) = .num (.fin q) G := by
  induction r with
  | nil => exact fun {p} hp H _ _ => ⟨p, H, hp, rfl, rfl⟩
  | cons x r ih =>
    intro p hp H q' hq
    obtain ⟨a, k, e1, e2⟩ := hr x (by simp)
    have ih' := fun {p : ℚ} (hp : Grid D p) => ih (fun x hx => hr x (List.mem_cons_of_mem _ hx)) hp
    simp only [List.map_cons, List.foldl_cons] at hq ⊢
    by_cases hi : x.1 = i
    · simp only [if_pos hi] at hq ⊢
      exact ih' hp H hq
    · simp only [if_neg hi] at hq ⊢
      obtain ⟨z, z1, z2⟩ := e2 hi
      rw [e1] at hq ⊢
      change (List.foldl _ (_ + Fused.num (.fin (2 ^ e * a)) k * _) _).get = _ at hq
      obtain ⟨t, ht⟩ := fold_startF hq
      obtain ⟨q, rfl, q2, q3, q4⟩ := add_scaledF D e hp H k z1 z2 ht
      rw [q3] at hq
      obtain ⟨w, G, w1, w2, w3⟩ := ih' q2 _ hq
      refine ⟨w, G, w1, ?_, ?_⟩
      · change List.foldl _ (_ + Fused.num (.fin (2 ^ e * a)) k * _) _ = _
        rw [q3]
        exact w2
      · rw [q4]
        exact w3

/-- Quotients by zero are not finite. -/
theorem div_zeroF {x : Fused binary64 fuse} {h : Hist} {q : ℚ} : (x / .num (.fin 0) h).get ≠ .fin q := by
  show Fl.div binary64 x.get (.fin 0) ≠ .fin q
  cases x.get with
  | fin p =>
    unfold Fl.div
    simp only [if_true]
    split <;> simp
  | _ => unfold Fl.div; simp

theorem newValue_scaledF (D e : ℕ) {L L' : Rows (Fused binary64 fuse)} (i : Fin n) (hL : row L' i = (row L i).map fun x => (x.1, raise e x.2))
    {b b' y : Fin n → Fused binary64 fuse} {β d : ℚ} {hb hd : Hist} (h1 : b i = .num (.fin β) hb) (h1' : b' i = .num (.fin (2 ^ e * β)) hb)
    (hβ : Grid D β) {o : ℚ} (ho : ∀ u, Grid D u → Least (o * u))
    (hr : ∀ x ∈ row L i, ∃ q k, x.2 = .num (.fin q) k ∧ (x.1 ≠ i.1 → ∃ z, ((vec y).getD x.1 0).get = .fin z ∧ Grid D (q * z)))
    (hf : ∃ w, (newValue (fusedFloats binary64 fuse sqrt) L' b' (.num (.fin o) (.input 0)) (.num (.fin (2 ^ e * d)) hd) y i).get =
      .fin w) :
    newValue (fusedFloats binary64 fuse sqrt) L' b' (.num (.fin o) (.input 0)) (.num (.fin (2 ^ e * d)) hd) y i =
      newValue (fusedFloats binary64 fuse sqrt) L b (.num (.fin o) (.input 0)) (.num (.fin d) hd) y i := by
  have h2 : (2 : ℚ) ^ e ≠ 0 := by positivity
  obtain ⟨w, hw⟩ := hf
  unfold newValue at hw ⊢
  rw [hL, h1'] at hw
  rw [hL, h1', h1]
  obtain ⟨_, _, f1, -, -⟩ := add_fin (rnd := binary64) hw
  have hd0 : d ≠ 0 := by
    rintro rfl
    rw [mul_zero] at f1
    exact div_zeroF f1
  obtain ⟨v', f2, -⟩ := div_fin (rnd := binary64) (mul_ne_zero h2 hd0) f1
  obtain ⟨_, u', f3, f4, f5⟩ := mul_fin (rnd := binary64) f2
  obtain rfl := (Fl.fin.injEq _ _).mp f3
  obtain ⟨_, s', f6, f7, f8⟩ := sub_fin (rnd := binary64) f4
  obtain rfl := (Fl.fin.injEq _ _).mp f6
  obtain ⟨x', G', f9⟩ := fold_numF i.1 ((row L i).map fun x => (x.1, raise e x.2)) y (.fin 0) (.input 0)
  change List.foldl _ (0 : Fused binary64 fuse) _ = _ at f9
  rw [f9] at f7
  have f7' : x' = .fin s' := f7
  have f10 := fold_scaledF (fuse := fuse) D e i.1 y (row L i) hr (p := 0) (grid_zero D) (.input 0) (q' := s')
  rw [mul_zero] at f10
  obtain ⟨s, G, s1, s2, s3⟩ := f10 (by
    change (List.foldl _ (0 : Fused binary64 fuse) _).get = _
    rw [f9, f7']
    rfl)
  change List.foldl _ (0 : Fused binary64 fuse) _ = _ at s2
  change List.foldl _ (0 : Fused binary64 fuse) _ = _ at s3
  have f11 : s' = 2 ^ e * s := by
    rw [f9, f7'] at s2
    exact (Fl.fin.injEq _ _).mp (congrArg Fused.get s2)
  rw [f11, ← mul_sub] at f8
  obtain ⟨u, rfl, g1⟩ := binary64_scale e (.inl (hβ.sub s1).least) f8
  rw [mul_left_comm] at f5
  obtain ⟨v, rfl, g2⟩ := binary64_scale e (.inl (ho u ((hβ.sub s1).round g1))) f5
  rw [s2, s3]
  congr 1
  have k1 : Fl.sub binary64 (.fin (2 ^ e * β)) (.fin (2 ^ e * s)) = .fin (2 ^ e * u) := by
    show binary64 (2 ^ e * β + -(2 ^ e * s)) = _
    rw [← sub_eq_add_neg, ← mul_sub]
    exact f8
  have k2 : Fl.sub binary64 (.fin β) (.fin s) = .fin u := by
    show binary64 (β + -s) = _
    rw [← sub_eq_add_neg]
    exact g1
  have k3 : Fl.mul binary64 (.fin o) (.fin (2 ^ e * u)) = .fin (2 ^ e * v) := by
    show binary64 (o * (2 ^ e * u)) = _
    rw [mul_left_comm]
    exact f5
  have k4 : Fl.mul binary64 (.fin o) (.fin u) = .fin v := g2
  have k5 : Fl.div binary64 (.fin (2 ^ e * v)) (.fin (2 ^ e * d)) = Fl.div binary64 (.fin v) (.fin d) := by
    unfold Fl.div
    simp only [mul_eq_zero, h2, hd0, or_self, if_false]
    rw [mul_div_mul_left _ _ h2]
  show Fused.num (Fl.div binary64 (Fl.mul binary64 (.fin o) (Fl.sub binary64 (.fin (2 ^ e * β)) (.fin (2 ^ e * s)))) (.fin (2 ^ e * d))) _ =
    Fused.num (Fl.div binary64 (Fl.mul binary64 (.fin o) (Fl.sub binary64 (.fin β) (.fin s))) (.fin d)) _
  rw [k1, k2, k3, k4, k5]
  rfl

/-! ### The property -/

/-- One iteration. -/
theorem step_scaledF (D : ℕ) (h : ScaledF n κ m m') {k : Method} (hk : k = .sor → 1 ≤ D) (s s' : FixedPoint (Fused binary64 fuse)) (β : Fin n → ℚ)
    (hb : Fin n → Hist) (hβ : ∀ i, Grid D (β i)) (x : Fin n → Fused binary64 fuse) {w w' : List (Fused binary64 fuse)}
    (hw : k = .jacobi → w.length = n) (hw' : k = .jacobi → w'.length = n) :
    ∃ (y' : Fin n → Fused binary64 fuse) (v' : List (Fused binary64 fuse)),
      Iterative.step (fusedFloats binary64 fuse sqrt) k s' m' (vec fun i => .num (.fin (2 ^ κ i * β i)) (hb i)) (vec x, w') = .ok (vec y', v') ∧
      (k = .jacobi → v'.length = n) ∧
      ((∀ i, ∃ q, (y' i).get = .fin q) →
        (∀ i p : Fin n, p ≠ i → ∀ a h, Spec.lookup m i p = .ok (some (.num (.fin a) h)) →
          (∃ z, (x p).get = .fin z ∧ Grid D (a * z)) ∧ ∃ z, (y' p).get = .fin z ∧ Grid D (a * z)) →
        ∃ v, Iterative.step (fusedFloats binary64 fuse sqrt) k s m (vec fun i => .num (.fin (β i)) (hb i)) (vec x, w) = .ok (vec y', v) ∧
          (k = .jacobi → v.length = n)) := by
  obtain ⟨L, L', h1, k1, h2, k2, hl, kl, h4, h5, h6⟩ := h.reps
  have h6' : ∀ i : Fin n, ∃ d k, entry L i i = some (.num (.fin d) k) ∧ entry L' i i = some (.num (.fin (2 ^ κ i * d)) k) :=
    fun i => h6 i i.2
  choose d hd d2 d3 using h6'
  obtain ⟨o, ho, ho'⟩ : ∃ o, (if k = .sor then (fusedFloats binary64 fuse sqrt).threeHalves else (fusedFloats binary64 fuse sqrt).one) =
      .num (.fin o) (.input 0) ∧ ∀ u, Grid D u → Least (o * u) := by
    by_cases hs : k = .sor
    · exact ⟨3 / 2, by rw [if_pos hs]; rfl, fun u hu => hu.half (hk hs)⟩
    · exact ⟨1, by rw [if_neg hs]; rfl, fun u hu => by rw [one_mul]; exact hu.least⟩
  obtain ⟨y, v, e1, e2, e3⟩ := step_gen (fusedFloats binary64 fuse sqrt) k s h1 h2 hl _ d2 (fun i => .num (.fin (β i)) (hb i)) x w hw
  obtain ⟨y', v', f1, f2, f3⟩ := step_gen (fusedFloats binary64 fuse sqrt) k s' k1 k2 kl _ d3
    (fun i => .num (.fin (2 ^ κ i * β i)) (hb i)) x w' hw'
  refine ⟨y', v', f1, f2, fun hy hz => ⟨v, ?_, e2⟩⟩
  rw [e1]
  have : y = y' := by
    refine funext (fin_strong fun i ih => ?_)
    have hmix : (fun j => if k ≠ .jacobi ∧ j < i then y j else x j) = fun j => if k ≠ .jacobi ∧ j < i then y' j else x j := by
      funext j
      by_cases hj : k ≠ .jacobi ∧ j < i
      · rw [if_pos hj, if_pos hj, ih j hj.2]
      · rw [if_neg hj, if_neg hj]
    have f3' := f3 i
    rw [e3 i, f3 i, hmix, ho]
    rw [ho] at f3'
    symm
    refine newValue_scaledF D (κ i) i (h4 i i.2) rfl rfl (hβ i) ho' (fun a ha => ?_) ?_
    · obtain ⟨q, t, t1, t2, t3⟩ := h5 i i.2 a ha
      refine ⟨q, t, t2, fun hne => ?_⟩
      have := hz i ⟨a.1, t1⟩ (fun hc => hne (congrArg Fin.val hc)) q t t3
      rw [getD_vec_any _ _ t1]
      split
      · exact this.2
      · exact this.1
    · obtain ⟨q, hq⟩ := hy i
      rw [f3'] at hq
      exact ⟨q, hq⟩
  rw [this]

/-- Some iterations. -/
theorem times_scaledF (D : ℕ) (h : ScaledF n κ m m') {k : Method} (hk : k = .sor → 1 ≤ D) (s s' : FixedPoint (Fused binary64 fuse)) (β : Fin n → ℚ)
    (hb : Fin n → Hist) (hβ : ∀ i, Grid D (β i)) (x : Fin n → Fused binary64 fuse) (w w' : List (Fused binary64 fuse))
    (hw : k = .jacobi → w.length = n) (hw' : k = .jacobi → w'.length = n) (j : Nat)
    (hz : ∀ l ≤ j, ∀ (z : Fin n → Fused binary64 fuse) (u : List (Fused binary64 fuse)),
      times (Iterative.step (fusedFloats binary64 fuse sqrt) k s' m' (vec fun i => .num (.fin (2 ^ κ i * β i)) (hb i))) l (vec x, w') =
        .ok (vec z, u) →
      ∀ p, ∃ q, (z p).get = .fin q ∧
        ∀ i : Fin n, p ≠ i → ∀ a h, Spec.lookup m i p = .ok (some (.num (.fin a) h)) → Grid D (a * q)) :
    ∃ (y : Fin n → Fused binary64 fuse) (v v' : List (Fused binary64 fuse)),
      times (Iterative.step (fusedFloats binary64 fuse sqrt) k s' m' (vec fun i => .num (.fin (2 ^ κ i * β i)) (hb i))) j (vec x, w') =
        .ok (vec y, v') ∧
      times (Iterative.step (fusedFloats binary64 fuse sqrt) k s m (vec fun i => .num (.fin (β i)) (hb i))) j (vec x, w) =
        .ok (vec y, v) := by
  suffices hs : ∀ l ≤ j, ∃ (y : Fin n → Fused binary64 fuse) (v v' : List (Fused binary64 fuse)),
      times (Iterative.step (fusedFloats binary64 fuse sqrt) k s' m' (vec fun i => .num (.fin (2 ^ κ i * β i)) (hb i))) l (vec x, w') =
        .ok (vec y, v') ∧
      times (Iterative.step (fusedFloats binary64 fuse sqrt) k s m (vec fun i => .num (.fin (β i)) (hb i))) l (vec x, w) =
        .ok (vec y, v) ∧ (k = .jacobi → v.length = n) ∧ (k = .jacobi → v'.length = n) by
    obtain ⟨y, v, v', e1, e2, -⟩ := hs j le_rfl
    exact ⟨y, v, v', e1, e2⟩
  intro l
  induction l with
  | zero => exact fun _ => ⟨x, w, w', rfl, rfl, hw, hw'⟩
  | succ l ih =>
    intro hl
    obtain ⟨y, v, v', e1, e2, e3, e4⟩ := ih (by omega)
    obtain ⟨y', u', g1, g2, g3⟩ := step_scaledF (sqrt := sqrt) D h hk s s' β hb hβ y e3 e4
    have t1 : times (Iterative.step (fusedFloats binary64 fuse sqrt) k s' m' (vec fun i => .num (.fin (2 ^ κ i * β i)) (hb i))) (l + 1)
        (vec x, w') = .ok (vec y', u') := by
      rw [times_succ, e1]
      exact g1
    have z1 := hz l (by omega) y v' e1
    have z2 := hz (l + 1) hl y' u' t1
    obtain ⟨u, u1, u2⟩ := g3 (fun i => (z2 i).imp fun _ h => h.1) fun i p hp a k hlook => by
      obtain ⟨q, q1, q2⟩ := z1 p
      obtain ⟨r, r1, r2⟩ := z2 p
      exact ⟨⟨q, q1, q2 i hp a k hlook⟩, ⟨r, r1, r2 i hp a k hlook⟩⟩
    exact ⟨y', u, u', t1, by rw [times_succ, e2]; exact u1, u2, g2⟩

/-- C238: Jacobi and Gauss Seidel with doubles, where any of the products that are added may be fused. Each equation is multiplied by its
power of two `2 ^ κ i`, right hand side included, and the same products are fused. If the iterates of this system are finite up to some
iteration, those without the powers of two are the same up to there, to the last bit, if the products of elements off the diagonal with
values of these iterates are multiples of the least double. -/
theorem c238_equations (h : ScaledF n κ m m') {k : Method} (hk : k ≠ .sor) (s s' : FixedPoint (Fused binary64 fuse)) (β : Fin n → ℚ)
    (hb : Fin n → Hist) (hβ : ∀ i, binary64 (β i) = .fin (β i)) (x : Fin n → Fused binary64 fuse) (w w' : List (Fused binary64 fuse))
    (hw : k = .jacobi → w.length = n) (hw' : k = .jacobi → w'.length = n) (j : Nat)
    (hz : ∀ l ≤ j, ∀ (z : Fin n → Fused binary64 fuse) (u : List (Fused binary64 fuse)),
      times (Iterative.step (fusedFloats binary64 fuse sqrt) k s' m' (vec fun i => .num (.fin (2 ^ κ i * β i)) (hb i))) l (vec x, w') =
        .ok (vec z, u) →
      ∀ p, ∃ q, (z p).get = .fin q ∧
        ∀ i : Fin n, p ≠ i → ∀ a h, Spec.lookup m i p = .ok (some (.num (.fin a) h)) → Least (a * q)) :
    ∃ (y : Fin n → Fused binary64 fuse) (v v' : List (Fused binary64 fuse)),
      times (Iterative.step (fusedFloats binary64 fuse sqrt) k s' m' (vec fun i => .num (.fin (2 ^ κ i * β i)) (hb i))) j (vec x, w') =
        .ok (vec y, v') ∧
      times (Iterative.step (fusedFloats binary64 fuse sqrt) k s m (vec fun i => .num (.fin (β i)) (hb i))) j (vec x, w) =
        .ok (vec y, v) :=
  times_scaledF 0 h (fun hs => absurd hs hk) s s' β hb (fun i => grid_nought (binary64_least (hβ i))) x w w' hw hw' j
    fun l hl z u e p => (hz l hl z u e p).imp fun _ hq => ⟨hq.1, fun i hp a h ha => grid_nought (hq.2 i hp a h ha)⟩

/-- C238: successive over relaxation, whose product with 3 / 2 may underflow as well. Here the products and the right hand side are to be
multiples of twice the least double. -/
theorem c238_sor (h : ScaledF n κ m m') (s s' : FixedPoint (Fused binary64 fuse)) (β : Fin n → ℚ)
    (hb : Fin n → Hist) (hβ : ∀ i, Least (β i / 2)) (x : Fin n → Fused binary64 fuse) (w w' : List (Fused binary64 fuse))
    (j : Nat)
    (hz : ∀ l ≤ j, ∀ (z : Fin n → Fused binary64 fuse) (u : List (Fused binary64 fuse)),
      times (Iterative.step (fusedFloats binary64 fuse sqrt) .sor s' m' (vec fun i => .num (.fin (2 ^ κ i * β i)) (hb i))) l (vec x, w') =
        .ok (vec z, u) →
      ∀ p, ∃ q, (z p).get = .fin q ∧
        ∀ i : Fin n, p ≠ i → ∀ a h, Spec.lookup m i p = .ok (some (.num (.fin a) h)) → Least (a * q / 2)) :
    ∃ (y : Fin n → Fused binary64 fuse) (v v' : List (Fused binary64 fuse)),
      times (Iterative.step (fusedFloats binary64 fuse sqrt) .sor s' m' (vec fun i => .num (.fin (2 ^ κ i * β i)) (hb i))) j (vec x, w') =
        .ok (vec y, v') ∧
      times (Iterative.step (fusedFloats binary64 fuse sqrt) .sor s m (vec fun i => .num (.fin (β i)) (hb i))) j (vec x, w) =
        .ok (vec y, v) :=
  times_scaledF 1 h (fun _ => le_rfl) s s' β hb (fun i => by unfold Grid; rw [pow_one]; exact hβ i) x w w' (by simp) (by simp) j
    fun l hl z u e p => (hz l hl z u e p).imp fun _ hq => ⟨hq.1, fun i hp a h ha => by unfold Grid; rw [pow_one]; exact hq.2 i hp a h ha⟩

/-- C238: products of doubles of at least 2 ^ -968 meet the condition on products for successive over relaxation, and so do zeros. -/
theorem c238_products {p q : ℚ} (hp : binary64 p = .fin p) (hq : binary64 q = .fin q) (h : p * q = 0 ∨ 2 ^ (-968 : ℤ) ≤ |p * q|) :
    Least (p * q / 2) := by
  rcases h with h | h
  · exact ⟨0, by rw [h]; simp⟩
  have key : ∀ {x : ℚ}, binary64 x = .fin x → ∃ k : ℤ, x = k * 2 ^ lastDigit x := fun {x} hx => by
    have := near_of_double hx
    unfold near64 at this
    exact ⟨_, this.symm⟩
  obtain ⟨k, hk⟩ := key hp
  obtain ⟨l, hl⟩ := key hq
  have hsum : (-1073 : ℤ) ≤ lastDigit p + lastDigit q := by
    have h1 := Int.lt_zpow_succ_log_self (R := ℚ) (b := 2) (by norm_num) |p|
    have h2 := Int.lt_zpow_succ_log_self (R := ℚ) (b := 2) (by norm_num) |q|
    have h3 : (2 : ℚ) ^ (-968 : ℤ) < 2 ^ ((Int.log 2 |p| + 1) + (Int.log 2 |q| + 1)) := by
      rw [zpow_add₀ (by norm_num)]
      refine h.trans_lt ?_
      rw [abs_mul]
      exact mul_lt_mul'' (by exact_mod_cast h1) (by exact_mod_cast h2) (abs_nonneg _) (abs_nonneg _)
    have h4 := (zpow_lt_zpow_iff_right₀ (by norm_num : (1 : ℚ) < 2)).mp h3
    unfold lastDigit
    omega
  obtain ⟨m, hm⟩ := Int.eq_ofNat_of_zero_le (show 0 ≤ lastDigit p + lastDigit q + 1073 by omega)
  refine ⟨k * l * 2 ^ m, ?_⟩
  have e : (2 : ℚ) ^ lastDigit p * 2 ^ lastDigit q = 2 ^ m * (2 ^ (-1074 : ℤ) * 2 ^ (1 : ℤ)) := by
    rw [← zpow_add₀ (by norm_num), ← zpow_natCast, ← zpow_add₀ (by norm_num), ← zpow_add₀ (by norm_num)]
    congr 1
    omega
  calc p * q / 2 = (k * 2 ^ lastDigit p) * (l * 2 ^ lastDigit q) / 2 := by rw [← hk, ← hl]
    _ = k * l * (2 ^ lastDigit p * 2 ^ lastDigit q) / 2 := by ring
    _ = _ := by
      rw [e, zpow_one]
      push_cast
      ring

/-- C238: a fused product that is no multiple of the least double: half the system gives another iterate. -/
theorem c238_underflow :
    (Iterative.step (fusedFloats binary64 (fun _ _ _ => true) id) .gaussSeidel ⟨⟨0, 1, inp 0 0⟩, [], inp 0 1⟩
        (dense2 (inp 1 (2 / 2 ^ 100)) (inp 2 (6 / 2 ^ 600)) (inp 3 0) (inp 4 1)) [inp 5 0, inp 6 0] ([inp 7 0, inp 8 (1 / 2 ^ 475)], []) >>=
      fun r => pure (r.1.map Fused.get)) = .ok [.fin (-3 / 2 ^ 975), .fin 0] ∧
    (Iterative.step (fusedFloats binary64 (fun _ _ _ => true) id) .gaussSeidel ⟨⟨0, 1, inp 0 0⟩, [], inp 0 1⟩
        (dense2 (inp 1 (1 / 2 ^ 100)) (inp 2 (3 / 2 ^ 600)) (inp 3 0) (inp 4 1)) [inp 5 0, inp 6 0] ([inp 7 0, inp 8 (1 / 2 ^ 475)], []) >>=
      fun r => pure (r.1.map Fused.get)) = .ok [.fin (-4 / 2 ^ 975), .fin 0] := by
  constructor <;> decide +kernel

/-! ### Examples -/

/-- The second equation of a system times eight. -/
theorem scaled_example (fuse : Hist → Hist → Hist → Bool) : ScaledF (fuse := fuse) 2 (fun i => 3 * i)
    (dense2 (inp 1 3) (inp 2 (-1)) (inp 3 (-1)) (inp 4 3)) (dense2 (inp 1 3) (inp 2 (-1)) (inp 3 (-8)) (inp 4 24)) := by
  refine ⟨Built.ofLists (nz := [0, 2, 4]) (ix := [0, 1, 0, 1]) (vs := [inp 1 3, inp 2 (-1), inp 3 (-1), inp 4 3]) (c := 2)
    (by simp [sizeMax]) (by simp [sizeMax]) (dense2_lists _ _ _ _),
    Built.ofLists (nz := [0, 2, 4]) (ix := [0, 1, 0, 1]) (vs := [inp 1 3, inp 2 (-1), inp 3 (-8), inp 4 24]) (c := 2)
    (by simp [sizeMax]) (by simp [sizeMax]) (dense2_lists _ _ _ _), rfl, rfl, rfl, rfl, ?_, ?_⟩
  · intro i j hi hj
    obtain rfl | rfl : i = 0 ∨ i = 1 := by omega
    · obtain rfl | rfl : j = 0 ∨ j = 1 := by omega
      · exact ⟨some (3, .input 1), rfl, by norm_num; rfl⟩
      · exact ⟨some (-1, .input 2), rfl, by norm_num; rfl⟩
    · obtain rfl | rfl : j = 0 ∨ j = 1 := by omega
      · exact ⟨some (-1, .input 3), rfl, by norm_num; rfl⟩
      · exact ⟨some (3, .input 4), rfl, by norm_num; rfl⟩
  · intro i hi
    obtain rfl | rfl : i = 0 ∨ i = 1 := by omega
    · exact ⟨3, .input 1, rfl⟩
    · exact ⟨3, .input 4, rfl⟩

/-- The hypotheses of `c238_equations` are met by the first iteration for this system, whose quotients are rounded. -/
example : ∀ l ≤ 1, ∀ (z : Fin 2 → Fused binary64 fun _ _ _ => true) (u : List (Fused binary64 _)),
    times (Iterative.step (fusedFloats binary64 _ id) .gaussSeidel ⟨⟨0, 1, inp 0 0⟩, [], inp 0 1⟩
      (dense2 (inp 1 3) (inp 2 (-1)) (inp 3 (-8)) (inp 4 24))
      (vec fun i : Fin 2 => .num (.fin (2 ^ (3 * i.1) * 1)) (.input 5))) l (vec fun _ : Fin 2 => inp 6 0, []) = .ok (vec z, u) →
    ∀ p, ∃ q, (z p).get = .fin q ∧ ∀ i : Fin 2, p ≠ i → ∀ a h,
      Spec.lookup (dense2 (inp 1 3) (inp 2 (-1)) (inp 3 (-1)) (inp 4 3) : Sparse (Fused binary64 fun _ _ _ => true)) i p =
        .ok (some (.num (.fin a) h)) → Least (a * q) := by
  have key : ∀ (p i : Fin 2) (a : ℚ) (h : Hist), p ≠ i →
      Spec.lookup (dense2 (inp 1 3) (inp 2 (-1)) (inp 3 (-1)) (inp 4 3) : Sparse (Fused binary64 fun _ _ _ => true)) i p =
        .ok (some (.num (.fin a) h)) → a = -1 := by
    intro p i a h hp hl
    have : ∀ p i : Fin 2, p ≠ i → (Spec.lookup (dense2 (inp 1 3) (inp 2 (-1)) (inp 3 (-1)) (inp 4 3) :
        Sparse (Fused binary64 fun _ _ _ => true)) i p >>= fun o => pure (o.map Fused.get)) = .ok (some (.fin (-1))) := by decide +kernel
    have h1 := this p i hp
    rw [hl] at h1
    simp only [Out.ok_bind, Option.map_some] at h1
    exact (Fl.fin.injEq _ _).mp (Option.some.inj (Out.ok.inj h1))
  have first : ((times (Iterative.step (fusedFloats binary64 (fun _ _ _ => true) id) .gaussSeidel ⟨⟨0, 1, inp 0 0⟩, [], inp 0 1⟩
      (dense2 (inp 1 3) (inp 2 (-1)) (inp 3 (-8)) (inp 4 24))
      (vec fun i : Fin 2 => .num (.fin (2 ^ (3 * i.1) * 1)) (.input 5))) 1 (vec fun _ : Fin 2 => inp 6 0, [])) >>=
        fun r => pure (r.1.map Fused.get)) = .ok (vec fun i : Fin 2 => .fin (![near64 (1 / 3), near64 (near64 (1 + near64 (1 / 3)) / 3)] i)) := by
    decide +kernel
  intro l hl z u hz p
  rcases Nat.le_one_iff_eq_zero_or_eq_one.mp hl with rfl | rfl
  · have : z = fun _ => inp 6 0 := (vec_inj.mp (Prod.mk.inj (Out.ok.inj hz)).1).symm
    refine ⟨0, by rw [this]; rfl, fun i _ a h _ => ⟨0, by simp⟩⟩
  · rw [hz] at first
    have h1 : (vec z).map Fused.get = _ := Out.ok.inj first
    have h2 : (vec z).map Fused.get = vec fun i => (z i).get := by
      unfold vec
      rw [List.map_ofFn]
      rfl
    rw [h2, vec_inj] at h1
    refine ⟨_, congrFun h1 p, fun i hp a h hlook => ?_⟩
    rw [key p i a h hp hlook]
    refine least_product (by decide +kernel) ?_ (.inr ?_)
    all_goals
      clear hp h2 h1 first hz hlook
      revert p
      decide +kernel

/-- The same for `c238_sor`. -/
example : ∀ l ≤ 1, ∀ (z : Fin 2 → Fused binary64 fun _ _ _ => true) (u : List (Fused binary64 _)),
    times (Iterative.step (fusedFloats binary64 _ id) .sor ⟨⟨0, 1, inp 0 0⟩, [], inp 0 1⟩
      (dense2 (inp 1 3) (inp 2 (-1)) (inp 3 (-8)) (inp 4 24))
      (vec fun i : Fin 2 => .num (.fin (2 ^ (3 * i.1) * 1)) (.input 5))) l (vec fun _ : Fin 2 => inp 6 0, []) = .ok (vec z, u) →
    ∀ p, ∃ q, (z p).get = .fin q ∧ ∀ i : Fin 2, p ≠ i → ∀ a h,
      Spec.lookup (dense2 (inp 1 3) (inp 2 (-1)) (inp 3 (-1)) (inp 4 3) : Sparse (Fused binary64 fun _ _ _ => true)) i p =
        .ok (some (.num (.fin a) h)) → Least (a * q / 2) := by
  have key : ∀ (p i : Fin 2) (a : ℚ) (h : Hist), p ≠ i →
      Spec.lookup (dense2 (inp 1 3) (inp 2 (-1)) (inp 3 (-1)) (inp 4 3) : Sparse (Fused binary64 fun _ _ _ => true)) i p =
        .ok (some (.num (.fin a) h)) → a = -1 := by
    intro p i a h hp hl
    have : ∀ p i : Fin 2, p ≠ i → (Spec.lookup (dense2 (inp 1 3) (inp 2 (-1)) (inp 3 (-1)) (inp 4 3) :
        Sparse (Fused binary64 fun _ _ _ => true)) i p >>= fun o => pure (o.map Fused.get)) = .ok (some (.fin (-1))) := by decide +kernel
    have h1 := this p i hp
    rw [hl] at h1
    simp only [Out.ok_bind, Option.map_some] at h1
    exact (Fl.fin.injEq _ _).mp (Option.some.inj (Out.ok.inj h1))
  have first : ((times (Iterative.step (fusedFloats binary64 (fun _ _ _ => true) id) .sor ⟨⟨0, 1, inp 0 0⟩, [], inp 0 1⟩
      (dense2 (inp 1 3) (inp 2 (-1)) (inp 3 (-8)) (inp 4 24))
      (vec fun i : Fin 2 => .num (.fin (2 ^ (3 * i.1) * 1)) (.input 5))) 1 (vec fun _ : Fin 2 => inp 6 0, [])) >>=
        fun r => pure (r.1.map Fused.get)) = .ok (vec fun i : Fin 2 => .fin (![1 / 2, 3 / 4] i)) := by
    decide +kernel
  intro l hl z u hz p
  rcases Nat.le_one_iff_eq_zero_or_eq_one.mp hl with rfl | rfl
  · have : z = fun _ => inp 6 0 := (vec_inj.mp (Prod.mk.inj (Out.ok.inj hz)).1).symm
    refine ⟨0, by rw [this]; rfl, fun i _ a h _ => ⟨0, by simp⟩⟩
  · rw [hz] at first
    have h1 : (vec z).map Fused.get = _ := Out.ok.inj first
    have h2 : (vec z).map Fused.get = vec fun i => (z i).get := by
      unfold vec
      rw [List.map_ofFn]
      rfl
    rw [h2, vec_inj] at h1
    refine ⟨_, congrFun h1 p, fun i hp a h hlook => ?_⟩
    rw [key p i a h hp hlook]
    refine c238_products (by decide +kernel) ?_ (.inr ?_)
    all_goals
      clear hp h2 h1 first hz hlook
      revert p
      decide +kernel

end Disa.Props
