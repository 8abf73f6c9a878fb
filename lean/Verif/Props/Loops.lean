import Verif.Loops
import Verif.Props.IndexTypes

/-!
# Property C157: the loop macros
-/

namespace Disa.Props

open Disa Spec Loops IntTy

/-- C157 as stated in the properties file. -/
def C157 : Prop := ∀ (s e : IntTy) (start stop : Int), s.bits = 32 ∨ s.bits = 64 → e.bits = 32 ∨ e.bits = 64 → InType s start →
  InType e stop → ∃ fuel, forRange s e start stop fuel start = .ok (between start stop)

theorem pow_half {b : Nat} (h : 1 ≤ b) : (2 : Int) ^ b = 2 * 2 ^ (b - 1) := by
  obtain ⟨k, rfl⟩ := Nat.exists_eq_add_of_le h
  rw [show 1 + k - 1 = k by omega, pow_add]
  norm_num

theorem cast_unique {t : IntTy} (hb : 1 ≤ t.bits) {x y : Int} (hy : InType t y) (hxy : x % 2 ^ t.bits = y % 2 ^ t.bits) :
    t.cast x = y := by
  have hh := pow_half hb
  have hp : (0 : Int) < 2 ^ (t.bits - 1) := by positivity
  obtain ⟨h1, h2⟩ := hy
  unfold IntTy.cast
  rw [hxy]
  by_cases h0 : 0 ≤ y
  · have := IntTy.max_lt t
    rw [Int.emod_eq_of_lt h0 (by omega), if_pos h2]
  · unfold IntTy.min at h1
    unfold IntTy.max at h2 ⊢
    cases hs : t.signed
    · rw [hs] at h1; simp at h1; omega
    · rw [hs] at h1 h2
      simp only [if_true] at h1 h2 ⊢
      have : y % 2 ^ t.bits = y + 2 ^ t.bits := by
        rw [← Int.add_emod_right, Int.emod_eq_of_lt (by omega) (by omega)]
      rw [this, if_neg (by omega)]
      omega

theorem cast_in {t : IntTy} (hb : 1 ≤ t.bits) (x : Int) : InType t (t.cast x) := by
  have hh := pow_half hb
  have hp : (0 : Int) < 2 ^ (t.bits - 1) := by positivity
  have h1 := Int.emod_nonneg x (show (2 : Int) ^ t.bits ≠ 0 by omega)
  have h2 := Int.emod_lt_of_pos x (show (0 : Int) < 2 ^ t.bits by omega)
  unfold InType IntTy.cast IntTy.min IntTy.max
  cases t.signed <;> simp <;> split <;> omega

theorem cast_mod (t : IntTy) (x : Int) : t.cast x % 2 ^ t.bits = x % 2 ^ t.bits := by
  unfold IntTy.cast
  split
  · rw [Int.emod_emod_of_dvd _ dvd_rfl]
  · rw [Int.sub_emod_right, Int.emod_emod_of_dvd _ dvd_rfl]

theorem cast_self {t : IntTy} (hb : 1 ≤ t.bits) {x : Int} (h : InType t x) : t.cast x = x := cast_unique hb h rfl

/-- A step of the index within its type. -/
theorem step_in {t : IntTy} (hb : 32 ≤ t.bits) {x : Int} (h : InType t x) : t.promote.arith x = .ok x := by
  unfold IntTy.promote
  rw [if_neg (by omega)]
  unfold IntTy.arith
  split
  · rw [if_pos (show _ ∧ _ from h)]
  · rw [cast_self (by omega) h]

theorem step_out {t : IntTy} (hb : 32 ≤ t.bits) (hs : t.signed = true) {x : Int} (h : ¬ InType t x) : t.promote.arith x = .ub := by
  unfold IntTy.promote
  rw [if_neg (by omega)]
  unfold IntTy.arith
  rw [if_pos hs, if_neg (show ¬ (_ ∧ _) from h)]

theorem common_bits (s e : IntTy) : 32 ≤ (common s e).bits := by
  have h : ∀ t : IntTy, 32 ≤ t.promote.bits := by
    intro t
    unfold IntTy.promote
    split
    · exact le_rfl
    · omega
  have h1 := h s
  have h2 := h e
  unfold IntTy.common
  dsimp only
  split
  · exact h2
  · split
    · exact h1
    · split
      · exact h2
      · exact h1

/-- The direction of the loop. -/
def way (s e : IntTy) (start stop : Int) : Int := if (common s e).cast start < (common s e).cast stop then 1 else -1

/-- How far apart the bounds are after their conversion to the common type. -/
def gap (s e : IntTy) (start stop : Int) : Int := (common s e).cast stop - (common s e).cast start

theorem gap_eq (s e : IntTy) (start stop : Int) : gap s e start stop = way s e start stop * (gap s e start stop).natAbs := by
  unfold way gap
  split <;> omega

theorem next_in {s e : IntTy} (hb : 32 ≤ s.bits) (start stop : Int) {i : Int} (h : InType s (i + way s e start stop)) :
    (if IntTy.lt s e start stop then s.incr i else s.decr i) = .ok (i + way s e start stop) := by
  unfold way at h ⊢
  unfold IntTy.lt IntTy.incr IntTy.decr
  split at h
  · rename_i hc
    rw [if_pos (by simpa using hc), if_pos hc, step_in hb h, Out.ok_bind, cast_self (by omega) h]
    rfl
  · rename_i hc
    rw [if_neg (by simpa using hc), if_neg hc, ← sub_eq_add_neg] at *
    rw [step_in hb h, Out.ok_bind, cast_self (by omega) h]
    rfl

theorem next_out {s e : IntTy} (hb : 32 ≤ s.bits) (hs : s.signed = true) (start stop : Int) {i : Int}
    (h : ¬ InType s (i + way s e start stop)) : (if IntTy.lt s e start stop then s.incr i else s.decr i) = .ub := by
  unfold way at h
  unfold IntTy.lt IntTy.incr IntTy.decr
  split at h
  · rename_i hc
    rw [if_pos (by simpa using hc), step_out hb hs h]
    rfl
  · rename_i hc
    rw [if_neg (by simpa using hc), step_out hb hs (by rwa [sub_eq_add_neg])]
    rfl

/-- The comparison that ends the loop, after `k` steps. -/
theorem stop_at (s e : IntTy) (start stop : Int) {k : Nat} (hk : k ≤ (gap s e start stop).natAbs) :
    IntTy.eq s e (start + way s e start stop * k) stop = decide (k = (gap s e start stop).natAbs) := by
  have hb := common_bits s e
  have h1 := cast_in (t := common s e) (by omega) start
  have h2 := cast_in (t := common s e) (by omega) stop
  have hc : (common s e).cast (start + way s e start stop * k) = (common s e).cast start + way s e start stop * k := by
    apply cast_unique (by omega)
    · unfold InType way gap at *
      split <;> constructor <;> omega
    · rw [Int.add_emod, ← cast_mod (common s e) start, ← Int.add_emod]
  unfold IntTy.eq
  rw [hc, Bool.eq_iff_iff, beq_iff_eq, decide_eq_true_iff]
  unfold way gap at *
  split <;> omega

theorem in_between {t : IntTy} {a : Int} {w : Int} (hw : w = 1 ∨ w = -1) {k n : Nat} (hk : k ≤ n) (h0 : InType t a)
    (h1 : InType t (a + w * n)) : InType t (a + w * k) := by
  unfold InType at *
  rcases hw with rfl | rfl <;> omega

theorem way_cases (s e : IntTy) (start stop : Int) : way s e start stop = 1 ∨ way s e start stop = -1 := by
  unfold way; split <;> simp

theorem run_range {s e : IntTy} (hb : 32 ≤ s.bits) {start stop : Int} (h0 : InType s start)
    (h1 : InType s (start + gap s e start stop)) (n k : Nat) (hk : k + n = (gap s e start stop).natAbs) :
    forRange s e start stop (n + 1) (start + way s e start stop * k) =
      .ok ((List.range n).map fun a : Nat => start + way s e start stop * ((k + a : Nat) : Int)) := by
  have hw := way_cases s e start stop
  have hg := gap_eq s e start stop
  induction n generalizing k with
  | zero =>
    unfold forRange
    rw [stop_at s e start stop (by omega), decide_eq_true (by omega)]
    rfl
  | succ n ih =>
    unfold forRange
    rw [stop_at s e start stop (by omega), decide_eq_false (by omega)]
    have hs : start + way s e start stop * k + way s e start stop = start + way s e start stop * ((k + 1 : Nat) : Int) := by
      push_cast; ring
    have hin : InType s (start + way s e start stop * ((k + 1 : Nat) : Int)) :=
      in_between hw (n := (gap s e start stop).natAbs) (by omega) h0 (by rw [← hg]; exact h1)
    simp only [Bool.not_false, if_true]
    rw [next_in hb start stop (by rw [hs]; exact hin), Out.ok_bind, hs, ih (k + 1) (by omega)]
    simp only [Out.ok_bind, Out.pure_eq, Out.ok.injEq]
    rw [List.range_succ_eq_map, List.map_cons, List.map_map]
    congr 1
    apply List.map_congr_left
    intro a _
    simp only [Function.comp]
    congr 3
    omega

/-- Which values the index has, for all types of the bounds: it counts from `start` as far as the bounds are apart after they
have been converted to their common type. -/
theorem c157_visits (s e : IntTy) (hb : 32 ≤ s.bits) (start stop : Int) (h0 : InType s start)
    (h1 : InType s (start + ((common s e).cast stop - (common s e).cast start))) :
    ∃ fuel, forRange s e start stop fuel start =
      .ok (between start (start + ((common s e).cast stop - (common s e).cast start))) := by
  refine ⟨(gap s e start stop).natAbs + 1, ?_⟩
  have := run_range (e := e) (stop := stop) hb h0 h1 (gap s e start stop).natAbs 0 (by omega)
  rw [show start + way s e start stop * ((0 : Nat) : Int) = start by simp] at this
  rw [this, Out.ok.injEq]
  unfold between way gap
  split
  · rename_i h
    rw [if_pos (by omega), show ((common s e).cast stop - (common s e).cast start).natAbs =
      (start + ((common s e).cast stop - (common s e).cast start) - start).toNat by omega]
    apply List.map_congr_left
    intro a _
    simp
  · rename_i h
    rw [if_neg (by omega), show ((common s e).cast stop - (common s e).cast start).natAbs =
      (start - (start + ((common s e).cast stop - (common s e).cast start))).toNat by omega]
    apply List.map_congr_left
    intro a _
    simp
    ring

/-- If that leaves the type of `start`, the loop is undefined for signed types. -/
theorem c157_overflow (s e : IntTy) (hb : 32 ≤ s.bits) (hs : s.signed = true) (start stop : Int) (h0 : InType s start)
    (h1 : ¬ InType s (start + ((common s e).cast stop - (common s e).cast start))) :
    ∃ fuel, forRange s e start stop fuel start = .ub := by
  have hg := gap_eq s e start stop
  have hw := way_cases s e start stop
  have key : ∀ n k : Nat, k + n < (gap s e start stop).natAbs → InType s (start + way s e start stop * ((k + n : Nat) : Int)) →
      ¬ InType s (start + way s e start stop * ((k + n + 1 : Nat) : Int)) →
      forRange s e start stop (n + 1) (start + way s e start stop * k) = .ub := by
    intro n
    induction n with
    | zero =>
      intro k hk h2 h3
      unfold forRange
      rw [stop_at s e start stop (by omega), decide_eq_false (by omega)]
      simp only [Bool.not_false, if_true]
      rw [next_out hb hs start stop (by
        intro hc
        apply h3
        convert hc using 1
        push_cast; ring)]
      rfl
    | succ n ih =>
      intro k hk h2 h3
      have hst : start + way s e start stop * k + way s e start stop = start + way s e start stop * ((k + 1 : Nat) : Int) := by
        push_cast; ring
      unfold forRange
      rw [stop_at s e start stop (by omega), decide_eq_false (by omega)]
      simp only [Bool.not_false, if_true]
      rw [next_in hb start stop (by rw [hst]; exact in_between hw (by omega) h0 h2), Out.ok_bind, hst, ih (k + 1) (by omega)
        (by rw [show k + 1 + n = k + (n + 1) by omega]; exact h2) (by rw [show k + 1 + n + 1 = k + (n + 1) + 1 by omega]; exact h3)]
      rfl
  have hex : ∃ n : Nat, ¬ InType s (start + way s e start stop * ((n + 1 : Nat) : Int)) ∧ n < (gap s e start stop).natAbs := by
    refine ⟨(gap s e start stop).natAbs - 1, ?_⟩
    have hpos : 0 < (gap s e start stop).natAbs := by
      rcases Nat.eq_zero_or_pos (gap s e start stop).natAbs with h | h
      · exfalso
        apply h1
        change InType s (start + gap s e start stop)
        rw [hg, h]
        simpa using h0
      · exact h
    refine ⟨?_, by omega⟩
    rw [show (gap s e start stop).natAbs - 1 + 1 = (gap s e start stop).natAbs by omega, ← hg]
    exact h1
  classical
  obtain ⟨h2, h3⟩ := Nat.find_spec hex
  have h4 : InType s (start + way s e start stop * ((0 + Nat.find hex : Nat) : Int)) := by
    rw [Nat.zero_add]
    rcases Nat.eq_zero_or_pos (Nat.find hex) with h | h
    · rw [h]; simpa using h0
    · by_contra hc
      exact Nat.find_min hex (m := Nat.find hex - 1) (by omega) ⟨by rw [show Nat.find hex - 1 + 1 = Nat.find hex by omega]; exact hc,
        by omega⟩
  have := key (Nat.find hex) 0 (by omega) h4 (by rw [Nat.zero_add]; exact h2)
  exact ⟨Nat.find hex + 1, by simpa using this⟩

/-- For unsigned types the loop does not end. -/
theorem c157_endless (s e : IntTy) (hb : 32 ≤ s.bits) (hs : s.signed = false) (start stop : Int) (h0 : InType s start)
    (h1 : ¬ InType s (start + ((common s e).cast stop - (common s e).cast start))) (fuel : Nat) :
    forRange s e start stop fuel start = .diverge := by
  have hp : s.promote = s := by unfold IntTy.promote; rw [if_neg (by omega)]
  have hc := common_bits s e
  -- The common type is wider, and conversion to it keeps the values of the index.
  have hid : ∀ x, InType s x → (common s e).cast x = x := by
    intro x hx
    have h2 := IntTy.max_common s e
    unfold InType IntTy.min at hx
    rw [hs] at hx
    exact IntTy.cast_of_le hx.1 (by omega)
  have hne : ∀ x, InType s x → IntTy.eq s e x stop = false := by
    intro x hx
    unfold IntTy.eq
    rw [hid x hx]
    rw [hid start h0] at h1
    have : x ≠ (common s e).cast stop := by
      rintro rfl
      apply h1
      rwa [show start + ((common s e).cast stop - start) = (common s e).cast stop by omega]
    simpa using this
  have hnext : ∀ x, InType s x → ∃ y, (if IntTy.lt s e start stop then s.incr x else s.decr x) = .ok y ∧ InType s y := by
    intro x _
    unfold IntTy.incr IntTy.decr
    rw [hp]
    unfold IntTy.arith
    rw [hs]
    split
    · exact ⟨_, rfl, cast_in (by omega) _⟩
    · exact ⟨_, rfl, cast_in (by omega) _⟩
  have key : ∀ x, InType s x → forRange s e start stop fuel x = .diverge := by
    induction fuel with
    | zero => intro x _; rfl
    | succ n ih =>
      intro x hx
      obtain ⟨y, h2, h3⟩ := hnext x hx
      unfold forRange
      rw [hne x hx]
      simp only [Bool.not_false, if_true]
      rw [h2, Out.ok_bind, ih y h3]
      rfl
  exact key start h0

theorem forRange_mono {s e : IntTy} {start stop : Int} (fuel : Nat) {i : Int} (h : forRange s e start stop fuel i ≠ .diverge) (n : Nat) :
    forRange s e start stop (fuel + n) i = forRange s e start stop fuel i := by
  induction fuel generalizing i with
  | zero => exact absurd rfl h
  | succ fuel ih =>
    rw [show fuel + 1 + n = (fuel + n) + 1 by omega]
    unfold forRange at h ⊢
    split
    · rename_i hc
      rw [if_pos hc] at h
      cases hj : (if IntTy.lt s e start stop then s.incr i else s.decr i) with
      | ok j =>
        rw [hj, Out.ok_bind] at h
        rw [Out.ok_bind, Out.ok_bind, ih (by
          intro hd
          rw [hd] at h
          exact h rfl)]
      | _ => rfl
    · rfl

theorem forRange_unique {s e : IntTy} {start stop : Int} {f g : Nat} {i : Int} (h : forRange s e start stop f i ≠ .diverge)
    (h' : forRange s e start stop g i ≠ .diverge) : forRange s e start stop f i = forRange s e start stop g i := by
  rcases Nat.le_total f g with hfg | hfg
  · obtain ⟨n, rfl⟩ := Nat.exists_eq_add_of_le hfg
    exact (forRange_mono f h n).symm
  · obtain ⟨n, rfl⟩ := Nat.exists_eq_add_of_le hfg
    exact forRange_mono g h' n

theorem between_length (a b : Int) : (between a b).length = (b - a).natAbs := by
  unfold between
  split <;> simp <;> omega

theorem between_inj {a b c : Int} (h : between a b = between a c) : b = c ∨ (b - a = 1 ∧ c - a = -1) ∨ (b - a = -1 ∧ c - a = 1) := by
  have hl := congrArg List.length h
  rw [between_length, between_length] at hl
  have h1 := congrArg (fun l : List Int => l[1]?) h
  unfold between at h1
  split at h1 <;> split at h1 <;> simp only [List.getElem?_map] at h1
  · left; omega
  · by_cases h2 : 1 < (b - a).toNat
    · rw [List.getElem?_range h2, List.getElem?_range (by omega)] at h1
      simp at h1
      omega
    · right; left; omega
  · by_cases h2 : 1 < (a - b).toNat
    · rw [List.getElem?_range h2, List.getElem?_range (by omega)] at h1
      simp at h1
      omega
    · omega
  · left; omega

/-- The loop is right exactly if the conversion keeps the distance of the bounds and `end` is a value of the type of `start`. -/
theorem c157_exact (s e : IntTy) (hb : 32 ≤ s.bits) (start stop : Int) (h0 : InType s start) :
    (∃ fuel, forRange s e start stop fuel start = .ok (between start stop)) ↔
      (common s e).cast stop - (common s e).cast start = stop - start ∧ InType s stop := by
  constructor
  · rintro ⟨f, hf⟩
    by_cases h1 : InType s (start + ((common s e).cast stop - (common s e).cast start))
    · obtain ⟨g, hg⟩ := c157_visits s e hb start stop h0 h1
      have hu := forRange_unique (f := f) (g := g) (by rw [hf]; simp) (by rw [hg]; simp)
      rw [hf, hg, Out.ok.injEq] at hu
      have hc := common_bits s e
      have hpow : (4 : Int) ∣ 2 ^ (common s e).bits := by
        rw [show (4 : Int) = 2 ^ 2 by norm_num]
        exact pow_dvd_pow 2 (by omega)
      have d1 : (2 : Int) ^ (common s e).bits ∣ (common s e).cast stop - stop :=
        Int.dvd_of_emod_eq_zero (Int.emod_eq_emod_iff_emod_sub_eq_zero.mp (cast_mod _ _))
      have d2 : (2 : Int) ^ (common s e).bits ∣ (common s e).cast start - start :=
        Int.dvd_of_emod_eq_zero (Int.emod_eq_emod_iff_emod_sub_eq_zero.mp (cast_mod _ _))
      have d3 := hpow.trans d1
      have d4 := hpow.trans d2
      have : (common s e).cast stop - (common s e).cast start = stop - start := by
        rcases between_inj hu with h | h | h <;> omega
      refine ⟨this, ?_⟩
      rw [this] at h1
      rwa [show start + (stop - start) = stop by omega] at h1
    · exfalso
      cases hs : s.signed
      · rw [c157_endless s e hb hs start stop h0 h1 f] at hf
        cases hf
      · obtain ⟨g, hg⟩ := c157_overflow s e hb hs start stop h0 h1
        have hu := forRange_unique (f := f) (g := g) (by rw [hf]; simp) (by rw [hg]; simp)
        rw [hf, hg] at hu
        cases hu
  · rintro ⟨h1, h2⟩
    obtain ⟨g, hg⟩ := c157_visits s e hb start stop h0 (by rw [h1]; rwa [show start + (stop - start) = stop by omega])
    rw [h1, show start + (stop - start) = stop by omega] at hg
    exact ⟨g, hg⟩

/-- C157 fails: the loop over the indexes of a container in reverse order, down to -1, counts upwards. -/
theorem c157_violated : ¬ C157 := by
  intro h
  obtain ⟨f, hf⟩ := h IntTy.size IntTy.int 3 (-1) (.inr rfl) (.inl rfl) (by decide) (by decide)
  have := (c157_exact IntTy.size IntTy.int (by decide) 3 (-1) (by decide)).mp ⟨f, hf⟩
  revert this
  decide

theorem in_promote {t : IntTy} {x : Int} (h : InType t x) : InType t.promote x := by
  have hm := IntTy.max_promote t
  unfold InType at *
  refine ⟨?_, by omega⟩
  unfold IntTy.promote
  split
  · have : (2 : Int) ^ (t.bits - 1) ≤ 2 ^ 31 := pow_le_pow_right₀ (by norm_num) (by omega)
    unfold IntTy.min IntTy.int at *
    simp only [if_true, show 32 - 1 = 31 from rfl]
    split at h <;> omega
  · exact h.1

theorem signed_wider {t u : IntTy} (ht : t.signed = true) (hu : u.signed = true) (hb : t.bits ≤ u.bits) {x : Int} (h : InType t x) :
    InType u x := by
  have : (2 : Int) ^ (t.bits - 1) ≤ 2 ^ (u.bits - 1) := pow_le_pow_right₀ (by norm_num) (by omega)
  unfold InType IntTy.min IntTy.max at *
  rw [ht] at h
  rw [hu]
  simp only [if_true] at *
  omega

theorem promote_signed {t : IntTy} (h : t.signed = true) : t.promote.signed = true := by
  unfold IntTy.promote
  split
  · rfl
  · exact h

theorem in_common {s e : IntTy} (hs : s.signed = true) (he : e.signed = true) {x : Int} (h : InType s x ∨ InType e x) :
    InType (common s e) x := by
  have hs' := promote_signed hs
  have he' := promote_signed he
  have h' : InType s.promote x ∨ InType e.promote x := h.imp in_promote in_promote
  unfold IntTy.common
  dsimp only
  generalize s.promote = s at *
  generalize e.promote = e at *
  split
  · rcases h' with h' | h'
    · exact signed_wider hs' he' (by omega) h'
    · exact h'
  · split
    · rcases h' with h' | h'
      · exact h'
      · exact signed_wider he' hs' (by omega) h'
    · rcases h' with h' | h'
      · exact signed_wider hs' he' (by omega) h'
      · exact h'

theorem common_self (t : IntTy) : common t t = t.promote := by
  unfold IntTy.common
  simp

/-- Proved part of C157.  Missing: bounds of different types, when a negative one is compared with an unsigned one or when the
index cannot reach `end`. -/
theorem c157_partial (s e : IntTy) (hb : 32 ≤ s.bits) (start stop : Int) (h0 : InType s start) (h1 : InType s stop)
    (h2 : InType e stop) (h : s = e ∨ (0 ≤ start ∧ 0 ≤ stop) ∨ (s.signed = true ∧ e.signed = true)) :
    ∃ fuel, forRange s e start stop fuel start = .ok (between start stop) := by
  have hc := common_bits s e
  rw [c157_exact s e hb start stop h0]
  refine ⟨?_, h1⟩
  rcases h with rfl | ⟨ha, hb'⟩ | ⟨ha, hb'⟩
  · have : common s s = s := by
      rw [common_self]
      unfold IntTy.promote
      rw [if_neg (by omega)]
    rw [this, cast_self (by omega) h0, cast_self (by omega) h1]
  · have h3 := IntTy.max_common s e
    rw [IntTy.cast_of_le ha (h0.2.trans h3.1), IntTy.cast_of_le hb' (h2.2.trans h3.2)]
  · rw [cast_self (by omega) (in_common ha hb' (.inl h0)), cast_self (by omega) (in_common ha hb' (.inr h2))]

/-- The loop with one bound counts from zero to the bound, for every type, and does nothing if the bound is negative. -/
theorem c157_index (t : IntTy) (maxIter : Int) (h : InType t maxIter) :
    ∃ fuel, forIndex t maxIter fuel 0 = .ok (if 0 < maxIter then between 0 maxIter else []) := by
  by_cases hm : 0 < maxIter
  · rw [if_pos hm]
    obtain ⟨n, rfl⟩ : ∃ n : Nat, maxIter = n := ⟨maxIter.toNat, by omega⟩
    have h2 := h.2
    have key : ∀ m k : Nat, k + m = n → forIndex t n (m + 1) k = .ok ((List.range m).map fun a : Nat => ((k + a : Nat) : Int)) := by
      intro m
      induction m with
      | zero =>
        intro k hk
        unfold forIndex
        rw [IntTy.lt_nat (by omega) h2, decide_eq_false (by omega)]
        rfl
      | succ m ih =>
        intro k hk
        unfold forIndex
        rw [IntTy.lt_nat (by omega) h2, decide_eq_true (by omega), IntTy.incr_nat (by omega)]
        simp only [if_true, Out.ok_bind]
        rw [ih (k + 1) (by omega)]
        simp only [Out.ok_bind, Out.pure_eq, Out.ok.injEq]
        rw [List.range_succ_eq_map, List.map_cons, List.map_map]
        congr 1
        apply List.map_congr_left
        intro a _
        simp only [Function.comp]
        congr 1
        omega
    refine ⟨n + 1, ?_⟩
    have := key n 0 (by omega)
    rw [Nat.cast_zero] at this
    rw [this]
    unfold between
    rw [if_pos hm]
    simp
  · refine ⟨1, ?_⟩
    rw [if_neg hm]
    unfold forIndex IntTy.lt
    have hc := common_bits t t
    rw [common_self, cast_self (by rw [← common_self]; omega) (in_promote h),
      cast_self (by rw [← common_self]; omega) (show InType t.promote 0 from ?_)]
    · rw [if_neg (by simpa using hm)]
      rfl
    · refine ⟨IntTy.min_le _, ?_⟩
      have e1 : (0 : Int) < 2 ^ (t.promote.bits - 1) := by positivity
      have e2 : (0 : Int) < 2 ^ t.promote.bits := by positivity
      unfold IntTy.max
      split <;> omega

/-! ### Concrete cases -/

-- Bounds of one type, upwards and downwards.
example : forRange IntTy.int IntTy.int (-2) 3 6 (-2) = .ok [-2, -1, 0, 1, 2] := by decide +kernel
example : forRange IntTy.size IntTy.size 3 0 4 3 = .ok [3, 2, 1] := by decide +kernel
example : InType IntTy.int (-2) ∧ InType IntTy.int 3 ∧ InType IntTy.size 3 ∧ InType IntTy.size 0 := by decide

-- From an `int` zero to a `std::size_t` bound.
example : forRange IntTy.int IntTy.size 0 3 4 0 = .ok [0, 1, 2] := by decide +kernel

-- From 3 down to -1: the index counts upwards to the largest `std::size_t`.
example : ∃ fuel, forRange IntTy.size IntTy.int 3 (-1) fuel 3 = .ok (between 3 (2 ^ 64 - 1)) := by
  have := c157_visits IntTy.size IntTy.int (by decide) 3 (-1) (by decide) (by decide)
  rwa [show (3 : Int) + ((common IntTy.size IntTy.int).cast (-1) - (common IntTy.size IntTy.int).cast 3) = 2 ^ 64 - 1 by decide] at this

-- From -1 up to an unsigned bound: undefined.
example : ∃ fuel, forRange IntTy.int IntTy.size (-1) 3 fuel (-1) = .ub :=
  c157_overflow IntTy.int IntTy.size (by decide) rfl (-1) 3 (by decide) (by decide)

-- From an unsigned zero to a bound that its type does not hold: endless.
example (fuel : Nat) : forRange ⟨32, false⟩ IntTy.size 0 (2 ^ 32) fuel 0 = .diverge :=
  c157_endless ⟨32, false⟩ IntTy.size (by decide) rfl 0 (2 ^ 32) (by decide) (by decide) fuel

example : forIndex IntTy.int 3 4 0 = .ok [0, 1, 2] ∧ forIndex IntTy.int (-3) 1 0 = .ok [] := by decide +kernel

end Disa.Props
