import Verif.Graph.CheckSum
import Verif.Props.IntsScalar
import Verif.Props.Graph
import Verif.Props.ScaledFloat

/-!
# The check sum of `reorder` with doubles
-/

namespace Disa.Props

open Disa Spec Graph Num

/-- A number of at least `2^53`, or infinity. -/
def Large (x : Num binary64) : Prop := x = .inf false ∨ ∃ q : ℚ, x = fin q ∧ 2 ^ 53 ≤ q

theorem round_large {q : ℚ} (h : 2 ^ 53 ≤ q) : Large (binary64 q) := by
  rw [binary64_near]
  split
  · refine .inr ⟨_, rfl, ?_⟩
    have h1 := near64_mono h
    have h2 : near64 (2 ^ 53) = 2 ^ 53 := by
      have : binary64 (2 ^ 53) = .fin (2 ^ 53) := by decide +kernel
      rw [binary64_near] at this
      split at this
      · simpa using this
      · cases this
    rwa [h2] at h1
  · left
    have : ¬ q < 0 := by
      have : (0 : ℚ) < 2 ^ 53 := by norm_num
      linarith
    rw [decide_eq_false this]

theorem asDouble_small {n : Nat} (h : n < 2 ^ 53) : asDouble n = fin n := by
  have := double_int (z := n) (by rw [abs_of_nonneg (by omega)]; exact_mod_cast h)
  rw [Int.cast_natCast] at this
  exact this

theorem asDouble_nonneg (n : Nat) : asDouble n = .inf false ∨ ∃ q : ℚ, asDouble n = fin q ∧ 0 ≤ q := by
  by_cases h : n < 2 ^ 53
  · exact .inr ⟨n, asDouble_small h, by positivity⟩
  · rcases round_large (q := n) (by exact_mod_cast (show 2 ^ 53 ≤ n by omega)) with h | ⟨q, h, h'⟩
    · exact .inl h
    · exact .inr ⟨q, h, le_trans (by norm_num) h'⟩

theorem asDouble_large {n : Nat} (h : 2 ^ 53 ≤ n) : Large (asDouble n) := round_large (by exact_mod_cast h)

theorem large_add {x : Num binary64} (h : Large x) (n : Nat) : Large (x + asDouble n) := by
  rcases h with rfl | ⟨q, rfl, hq⟩
  · rcases asDouble_nonneg n with h | ⟨p, h, -⟩ <;> rw [h] <;> exact .inl rfl
  · rcases asDouble_nonneg n with h | ⟨p, h, hp⟩ <;> rw [h]
    · exact .inl rfl
    · exact round_large (by linarith)

theorem foldl_large (l : List Nat) : ∀ {x : Num binary64}, Large x → Large (l.foldl (fun s x => s + asDouble x) x) := by
  induction l with
  | nil => exact fun h => h
  | cons n l ih => exact fun h => ih (large_add h n)

/-- Sums below `2^53` are exact, others do not come out below `2^53`. -/
theorem foldl_checkSum (l : List Nat) : ∀ a : Nat, a < 2 ^ 53 →
    (a + l.sum < 2 ^ 53 → l.foldl (fun s x => s + asDouble x) (fin a) = fin ((a + l.sum : Nat) : ℚ)) ∧
    (2 ^ 53 ≤ a + l.sum → Large (l.foldl (fun s x => s + asDouble x) (fin a))) := by
  induction l with
  | nil => intro a h; exact ⟨fun _ => by simp, fun h' => by simp at h'; omega⟩
  | cons n l ih =>
    intro a h
    rw [List.foldl_cons, List.sum_cons]
    by_cases hn : n < 2 ^ 53
    · have e : (fin (a : ℚ) + asDouble n : Num binary64) = asDouble (a + n) := by
        rw [asDouble_small hn, asDouble, Nat.cast_add]
        rfl
      rw [e]
      by_cases ha : a + n < 2 ^ 53
      · rw [asDouble_small ha]
        have := ih (a + n) ha
        rw [add_assoc] at this
        exact this
      · exact ⟨fun h' => by omega, fun _ => foldl_large l (asDouble_large (by omega))⟩
    · refine ⟨fun h' => by omega, fun _ => foldl_large l ?_⟩
      rcases asDouble_large (n := n) (by omega) with h' | ⟨q, h', hq⟩ <;> rw [h']
      · exact .inl rfl
      · exact round_large (by have : (0 : ℚ) ≤ a := by positivity
                              linarith)

theorem checkSumOf_small {n : Nat} (h : n ≤ 2 ^ 27) : checkSumOf n = fin (((n - 1) * n / 2 : Nat) : ℚ) ∧ (n - 1) * n / 2 < 2 ^ 53 := by
  have e : usub n 1 * n = (n - 1) * n := by
    rcases Nat.eq_zero_or_pos n with rfl | h0
    · simp
    · rw [usub_of_le h0]
  have hb : (n - 1) * n < 2 ^ 54 := by
    rcases Nat.eq_zero_or_pos n with rfl | h0
    · simp
    calc (n - 1) * n ≤ (2 ^ 27 - 1) * 2 ^ 27 := Nat.mul_le_mul (by omega) h
      _ < 2 ^ 54 := by norm_num
  have h2 : 2 ∣ (n - 1) * n := by
    rcases Nat.eq_zero_or_pos n with rfl | h0
    · simp
    · obtain ⟨k, rfl⟩ := Nat.exists_eq_add_of_le' h0
      rw [Nat.add_sub_cancel]
      exact (Nat.even_mul_succ_self k).two_dvd
  obtain ⟨T, hT⟩ := h2
  have hT' : T < 2 ^ 53 := by omega
  unfold checkSumOf
  rw [e, wrap, Nat.mod_eq_of_lt (by omega), hT, Nat.mul_div_cancel_left _ (by norm_num)]
  refine ⟨?_, hT'⟩
  have d1 : asDouble (2 * T) = fin ((2 * T : Nat) : ℚ) := by
    have := binary64_scale_exact 1 (q := T) (asDouble_small hT') ?_
    · unfold asDouble
      push_cast
      rw [pow_one] at this
      exact this
    · rw [abs_of_nonneg (by positivity)]
      have : (T : ℚ) < 2 ^ 53 := by exact_mod_cast hT'
      calc (2 : ℚ) ^ 1 * T < 2 ^ 1 * 2 ^ 53 := by linarith
        _ = 2 ^ 54 := by norm_num
        _ < 2 ^ 1024 := pow_lt_pow_right₀ (by norm_num) (by norm_num)
  rw [d1]
  show Fl.div binary64 (.fin _) (.fin 2) = _
  rw [Fl.div, if_neg (by norm_num)]
  have : ((2 * T : Nat) : ℚ) / 2 = T := by push_cast; ring
  rw [this]
  exact asDouble_small hT'

/-- C187, what holds: up to `2^27` vertices the check sum in `double` accepts what the exact check sum accepts. -/
theorem c187_check {n : Nat} (h : n ≤ 2 ^ 27) (perm : List Nat) :
    Fl.eq (checkSum perm) (checkSumOf n) = true ↔ 2 * perm.sum = (n - 1) * n := by
  obtain ⟨h1, h2⟩ := checkSumOf_small h
  have h3 : 2 * ((n - 1) * n / 2) = (n - 1) * n := by
    refine Nat.mul_div_cancel' ?_
    rcases Nat.eq_zero_or_pos n with rfl | h0
    · simp
    · obtain ⟨k, rfl⟩ := Nat.exists_eq_add_of_le' h0
      rw [Nat.add_sub_cancel]
      exact (Nat.even_mul_succ_self k).two_dvd
  rw [h1]
  obtain ⟨f1, f2⟩ := foldl_checkSum perm 0 (by norm_num)
  rw [Nat.zero_add] at f1 f2
  by_cases hs : perm.sum < 2 ^ 53
  · have : checkSum perm = fin ((perm.sum : Nat) : ℚ) := by
      have := f1 hs
      unfold checkSum
      exact_mod_cast this
    rw [this]
    show decide _ = true ↔ _
    rw [decide_eq_true_iff, Nat.cast_inj]
    omega
  · have hl : Large (checkSum perm) := by
      have := f2 (by omega)
      unfold checkSum
      exact_mod_cast this
    refine ⟨fun he => ?_, fun he => by omega⟩
    exfalso
    rcases hl with hl | ⟨q, hl, hq⟩ <;> rw [hl] at he
    · cases he
    · have he : q = (((n - 1) * n / 2 : Nat) : ℚ) := of_decide_eq_true he
      have : (((n - 1) * n / 2 : Nat) : ℚ) < 2 ^ 53 := by exact_mod_cast h2
      linarith

/-- C187, what holds: for graphs of up to `2^27` vertices everything that is proved about `reorder` with an exact check sum
is true of the code. -/
theorem c187_reorder_partial (g : Graph) (h : g.sizeVertex ≤ 2 ^ 27) (perm : List Nat) :
    g.reorderDouble perm = g.reorder perm := by
  unfold reorderDouble reorder
  have : Fl.eq (checkSum perm) (checkSumOf g.sizeVertex) = (2 * perm.sum == (g.sizeVertex - 1) * g.sizeVertex) := by
    rw [Bool.eq_iff_iff, c187_check h, beq_iff_eq]
  simp only [this]

/-! ### Larger graphs -/

/-- The full C187: every permutation of the vertices is accepted.  It is false, see `c187_violated`. -/
def C187 : Prop := ∀ d g perm, Reachable d g → perm.Perm (List.range g.sizeVertex) → ∃ g', g.reorderDouble perm = .ok (g', g)

/-- Even numbers up to `2^54` are doubles. -/
theorem asDouble_even {n : Nat} (h : n < 2 ^ 54) (h2 : 2 ∣ n) : asDouble n = fin n := by
  obtain ⟨k, rfl⟩ := h2
  have hk : k < 2 ^ 53 := by omega
  have := binary64_scale_exact 1 (q := k) (asDouble_small hk) ?_
  · unfold asDouble
    push_cast
    rw [pow_one] at this
    exact this
  · rw [abs_of_nonneg (by positivity)]
    have : (k : ℚ) < 2 ^ 53 := by exact_mod_cast hk
    calc (2 : ℚ) ^ 1 * k < 2 ^ 1 * 2 ^ 53 := by linarith
      _ = 2 ^ 54 := by norm_num
      _ < 2 ^ 1024 := pow_lt_pow_right₀ (by norm_num) (by norm_num)

theorem foldl_even (l : List Nat) : ∀ a : Nat, 2 ∣ a → (∀ x ∈ l, 2 ∣ x ∧ x < 2 ^ 53) → a + l.sum < 2 ^ 54 →
    l.foldl (fun s x => s + asDouble x) (fin a) = fin ((a + l.sum : Nat) : ℚ) := by
  induction l with
  | nil => intro a _ _ _; simp
  | cons n l ih =>
    intro a h h1 h2
    rw [List.sum_cons] at h2
    rw [List.foldl_cons, List.sum_cons]
    obtain ⟨hn, hn'⟩ := h1 n (by simp)
    have e : (fin (a : ℚ) + asDouble n : Num binary64) = asDouble (a + n) := by
      rw [asDouble_small hn', asDouble, Nat.cast_add]
      rfl
    rw [e, asDouble_even (by omega) (h.add hn), ih _ (h.add hn) (fun x hx => h1 x (by simp [hx])) (by omega), add_assoc]

/-- The vertices in an order whose check sum is too small: first the odd ones but 1 and 5, then the even ones, then 1 and 5. -/
def lossy (n : Nat) : List Nat :=
  ((List.range n).filter fun x => x % 2 == 1 && x != 1 && x != 5) ++ (List.range n).filter (fun x => x % 2 == 0) ++ [1, 5]

theorem lossy_perm {n : Nat} (h : 6 ≤ n) : (lossy n).Perm (List.range n) := by
  unfold lossy
  rw [List.perm_ext_iff_of_nodup _ List.nodup_range]
  · intro x
    simp only [List.mem_append, List.mem_filter, List.mem_range, Bool.and_eq_true, beq_iff_eq, bne_iff_ne, List.mem_cons,
      List.not_mem_nil, or_false]
    omega
  · rw [List.nodup_append, List.nodup_append]
    refine ⟨⟨List.nodup_range.filter _, List.nodup_range.filter _, ?_⟩, by simp, ?_⟩
    · intro a ha b hb hab
      simp only [List.mem_filter, Bool.and_eq_true, beq_iff_eq] at ha hb
      omega
    · intro a ha b hb hab
      simp only [List.mem_append, List.mem_filter, Bool.and_eq_true, beq_iff_eq, bne_iff_ne, List.mem_cons,
        List.not_mem_nil, or_false] at ha hb
      omega

theorem odd_sum (k : Nat) : ((List.range (2 * k)).filter fun x => x % 2 == 1 && x != 1 && x != 5).sum ≤ k ^ 2 := by
  induction k with
  | zero => simp
  | succ k ih =>
    have e : ((2 * k) % 2 == 1 && 2 * k != 1 && 2 * k != 5) = false := by
      rw [Nat.mul_mod_right]; rfl
    rw [show 2 * (k + 1) = 2 * k + 1 + 1 by ring, List.range_succ, List.range_succ, List.filter_append, List.filter_append,
      List.sum_append, List.sum_append]
    have h1 : (List.filter (fun x => x % 2 == 1 && x != 1 && x != 5) [2 * k]).sum = 0 := by
      rw [List.filter_cons_of_neg (by rw [e]; simp)]; rfl
    have h2 : (List.filter (fun x => x % 2 == 1 && x != 1 && x != 5) [2 * k + 1]).sum ≤ 2 * k + 1 := by
      rw [List.filter_cons]; split <;> simp
    rw [h1]
    nlinarith

/-- Halfway between two numbers the even one is taken. -/
theorem round_half {k : Nat} (h1 : 2 ^ 52 ≤ k) (h2 : k < 2 ^ 53) (he : k % 2 = 0) : binary64 ((2 * k + 1 : Nat) : ℚ) = .fin ((2 * k : Nat) : ℚ) := by
  have hpos : (0 : ℚ) ≤ ((2 * k + 1 : Nat) : ℚ) := by positivity
  have hl : Int.log 2 |((2 * k + 1 : Nat) : ℚ)| = 53 := by
    rw [abs_of_nonneg hpos, Int.log_natCast]
    norm_cast
    rw [Nat.log_eq_iff (by norm_num)]
    constructor <;> omega
  have hd : lastDigit ((2 * k + 1 : Nat) : ℚ) = 1 := by
    unfold lastDigit
    rw [hl]
    norm_num
  have hn : nearestEven (((2 * k + 1 : Nat) : ℚ) / 2 ^ (1 : ℤ)) = k := by
    have hf : ⌊((2 * k + 1 : Nat) : ℚ) / 2 ^ (1 : ℤ)⌋ = k := by
      rw [Int.floor_eq_iff]
      rw [zpow_one]
      push_cast
      constructor <;> linarith
    unfold nearestEven
    rw [hf]
    have hx : ((2 * k + 1 : Nat) : ℚ) / 2 ^ (1 : ℤ) - ((k : ℤ) : ℚ) = 1 / 2 := by
      rw [zpow_one]
      push_cast
      ring
    rw [hx, if_neg (lt_irrefl _), if_neg (lt_irrefl _), if_pos (by omega)]
  have hz : near64 ((2 * k + 1 : Nat) : ℚ) = ((2 * k : Nat) : ℚ) := by
    unfold near64
    rw [hd, hn, zpow_one]
    push_cast
    ring
  rw [binary64_near, hz, if_pos]
  rw [abs_of_nonneg (by positivity)]
  calc ((2 * k : Nat) : ℚ) < 2 ^ 54 := by exact_mod_cast (show 2 * k < 2 ^ 54 by omega)
    _ < 2 ^ 1024 := pow_lt_pow_right₀ (by norm_num) (by norm_num)

theorem checkSumOf_large {T n : Nat} (h : (n - 1) * n = 2 * T) (h0 : 0 < n) (hT : T < 2 ^ 54) (h2 : 2 ∣ T) : checkSumOf n = fin (T : ℚ) := by
  obtain ⟨k, rfl⟩ := h2
  have hk : k < 2 ^ 53 := by omega
  unfold checkSumOf
  rw [usub_of_le h0, h, wrap, Nat.mod_eq_of_lt (by omega)]
  have d1 : asDouble (2 * (2 * k)) = fin ((2 * (2 * k) : Nat) : ℚ) := by
    have := binary64_scale_exact 2 (q := k) (asDouble_small hk) ?_
    · unfold asDouble
      have e : ((2 * (2 * k) : Nat) : ℚ) = 2 ^ 2 * k := by push_cast; ring
      rw [e]
      exact this
    · rw [abs_of_nonneg (by positivity)]
      have : (k : ℚ) < 2 ^ 53 := by exact_mod_cast hk
      calc (2 : ℚ) ^ 2 * k < 2 ^ 2 * 2 ^ 53 := by linarith
        _ = 2 ^ 55 := by norm_num
        _ < 2 ^ 1024 := pow_lt_pow_right₀ (by norm_num) (by norm_num)
  rw [d1]
  show Fl.div binary64 (.fin _) (.fin 2) = _
  rw [Fl.div, if_neg (by norm_num)]
  have : ((2 * (2 * k) : Nat) : ℚ) / 2 = ((2 * k : Nat) : ℚ) := by push_cast; ring
  rw [this]
  exact asDouble_even hT ⟨k, rfl⟩

theorem range_double_sum (n : Nat) : 2 * (List.range n).sum = (n - 1) * n := by
  induction n with
  | zero => rfl
  | succ n ih =>
    rw [List.range_succ, List.sum_append, Nat.mul_add, ih, List.sum_singleton]
    rcases Nat.eq_zero_or_pos n with rfl | h
    · rfl
    · obtain ⟨k, rfl⟩ := Nat.exists_eq_add_of_le' h
      simp only [Nat.add_sub_cancel]
      ring

/-- C187, what happens instead: from `2^27` vertices on, for numbers of vertices that are 4 modulo 8, there are permutations which
make `reorder` exit, whatever the edges are. -/
theorem c187_rejected (g : Graph) (h1 : 2 ^ 27 < g.sizeVertex) (h2 : g.sizeVertex ≤ 180000000) (h3 : g.sizeVertex % 8 = 4) :
    (lossy g.sizeVertex).Perm (List.range g.sizeVertex) ∧ g.reorderDouble (lossy g.sizeVertex) = .exit 1 := by
  have hp := lossy_perm (n := g.sizeVertex) (by omega)
  refine ⟨hp, ?_⟩
  unfold reorderDouble
  have hlen : (lossy g.sizeVertex).length = g.sizeVertex := by rw [hp.length_eq, List.length_range]
  simp only [hlen, beq_self_eq_true, assert_true, Out.ok_bind]
  generalize hn : g.sizeVertex = n at *
  have hs : 2 * (lossy n).sum = (n - 1) * n := by rw [hp.sum_eq]; exact range_double_sum n
  obtain ⟨j, rfl⟩ : ∃ j, n = 8 * j + 4 := ⟨n / 8, by omega⟩
  have hT : (lossy (8 * j + 4)).sum = 4 * (8 * j * j + 7 * j + 1) + 2 := by
    have : (8 * j + 4 - 1) * (8 * j + 4) = 2 * (4 * (8 * j * j + 7 * j + 1) + 2) := by
      rw [show 8 * j + 4 - 1 = 8 * j + 3 by omega]; ring
    omega
  have hj : 8 * j * j + 7 * j + 1 < 2 ^ 52 := by
    have : j ≤ 22500000 := by omega
    have := Nat.mul_le_mul this this
    rw [mul_assoc]
    omega
  have hj' : 2 ^ 51 + 1 ≤ 8 * j * j + 7 * j + 1 := by
    have : 2 ^ 24 ≤ j := by omega
    have := Nat.mul_le_mul this this
    rw [mul_assoc]
    omega
  generalize 8 * j * j + 7 * j + 1 = Y at *
  rw [checkSumOf_large (T := 4 * Y + 2) (by omega) (by omega) (by omega) (by omega)]
  have hc : checkSum (lossy (8 * j + 4)) = fin ((4 * Y : Nat) : ℚ) := by
    unfold checkSum
    have hO := odd_sum (4 * j + 2)
    rw [show 2 * (4 * j + 2) = 8 * j + 4 by ring] at hO
    have hO' : (4 * j + 2) ^ 2 < 2 ^ 53 := by
      have : 4 * j + 2 ≤ 90000002 := by omega
      calc (4 * j + 2) ^ 2 ≤ 90000002 ^ 2 := Nat.pow_le_pow_left this 2
        _ < 2 ^ 53 := by norm_num
    have hE : 2 ∣ ((List.range (8 * j + 4)).filter fun x => x % 2 == 0).sum :=
      List.dvd_sum (fun x hx => by simp only [List.mem_filter, beq_iff_eq] at hx; omega)
    have hEm : ∀ x ∈ (List.range (8 * j + 4)).filter fun x => x % 2 == 0, 2 ∣ x ∧ x < 2 ^ 53 := fun x hx => by
      simp only [List.mem_filter, beq_iff_eq, List.mem_range] at hx; omega
    unfold lossy at hT ⊢
    rw [List.sum_append, List.sum_append] at hT
    rw [List.foldl_append, List.foldl_append]
    generalize (List.range (8 * j + 4)).filter (fun x => x % 2 == 1 && x != 1 && x != 5) = O at *
    generalize (List.range (8 * j + 4)).filter (fun x => x % 2 == 0) = E at *
    have h6 : List.sum [1, 5] = 6 := rfl
    rw [h6] at hT
    have f1 := (foldl_checkSum O 0 (by norm_num)).1 (by omega)
    rw [Nat.cast_zero, Nat.zero_add] at f1
    rw [f1, foldl_even E _ (by omega) hEm (by omega)]
    have e : O.sum + E.sum = 2 * (2 * Y - 2) := by omega
    rw [e]
    have g1 : (fin ((2 * (2 * Y - 2) : Nat) : ℚ) + asDouble 1 : Num binary64) = fin ((2 * (2 * Y - 2) : Nat) : ℚ) := by
      rw [asDouble_small (by norm_num)]
      have := round_half (k := 2 * Y - 2) (by omega) (by omega) (by omega)
      show binary64 _ = Fl.fin _
      rw [← this]
      congr 1
      push_cast
      rfl
    have g2 : (fin ((2 * (2 * Y - 2) : Nat) : ℚ) + asDouble 5 : Num binary64) = fin ((4 * Y : Nat) : ℚ) := by
      rw [asDouble_small (by norm_num)]
      have := round_half (k := 2 * Y) (by omega) (by omega) (by omega)
      rw [show 2 * (2 * Y) = 4 * Y by ring] at this
      show binary64 _ = Fl.fin _
      rw [← this]
      congr 1
      have : ((2 * (2 * Y - 2) : Nat) : ℚ) + (5 : Nat) = ((2 * (2 * Y - 2) + 5 : Nat) : ℚ) := by push_cast; rfl
      rw [this]
      congr 1
      omega
    rw [List.foldl_cons, List.foldl_cons, List.foldl_nil, g1, g2]
  rw [hc]
  have : Fl.eq (fin ((4 * Y : Nat) : ℚ) : Num binary64) (fin ((4 * Y + 2 : Nat) : ℚ) : Num binary64) = false := by
    show decide _ = false
    rw [decide_eq_false]
    rw [Nat.cast_inj]
    omega
  rw [this]
  rfl

/-- A graph of `n` vertices without edges. -/
theorem edgeless_reachable (d : Bool) {n : Nat} (h : n < sizeMax) (h0 : 0 < n) : ∃ g, Reachable d g ∧ g.sizeVertex = n := by
  refine ⟨⟨[], List.replicate (n + 1) 0⟩, ⟨[.resize n], by simpa [Op.Valid] using h, ?_⟩, ?_⟩
  · have e : wrap (n + 1) = n + 1 := by
      unfold wrap
      unfold sizeMax at h
      exact Nat.mod_eq_of_lt (by omega)
    simp [run, Spec.step, Graph.resize, Graph.new, Graph.sizeVertex, h0, e, resizeList]
  · simp [Graph.sizeVertex]

/-- C187 fails: a graph of 134217732 vertices rejects some of its permutations. -/
theorem c187_violated : ¬ C187 := by
  intro h
  obtain ⟨g, h1, h2⟩ := edgeless_reachable false (n := 134217732) (by norm_num [sizeMax]) (by norm_num)
  obtain ⟨h3, h4⟩ := c187_rejected g (by rw [h2]; norm_num) (by rw [h2]; norm_num) (by rw [h2])
  obtain ⟨g', h5⟩ := h false g _ h1 h3
  rw [h4] at h5
  cases h5

/-- C187, what holds: up to `2^27` vertices every permutation is accepted. -/
theorem c187_accepted_partial (d : Bool) (g : Graph) (h : Reachable d g) (hn : g.sizeVertex ≤ 2 ^ 27) (perm : List Nat)
    (hp : perm.Perm (List.range g.sizeVertex)) : ∃ g', g.reorderDouble perm = .ok (g', g) := by
  obtain ⟨g', h1, -⟩ := c08_reorder d g h perm hp
  exact ⟨g', by rw [c187_reorder_partial g hn, h1]⟩

/-- The sums that are compared: the rounded one is smaller by two. -/
example : binary64 (2 ^ 53 + 7 * 2 ^ 26 + 1) = .fin (2 ^ 53 + 7 * 2 ^ 26) ∧
    binary64 (2 ^ 53 + 7 * 2 ^ 26 + 5) = .fin (2 ^ 53 + 7 * 2 ^ 26 + 4) := by decide +kernel

/-- A small graph is renumbered. -/
example : (do let (g, _) ← Graph.new.insert false (0, 2); g.reorderDouble [1, 2, 0]) =
    .ok (⟨[1, 0], [0, 1, 2, 2]⟩, ⟨[2, 0], [0, 1, 1, 2]⟩) := by decide +kernel

end Disa.Props
