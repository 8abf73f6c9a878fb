/-!
# Outcomes of C++ calls and primitive vector operations

The model of a C++ function returns an `Out`.  Undefined behaviour is a separate outcome.
-/

namespace Disa

/-- Outcome of running a piece of C++.
* `ok a` : returned `a`;
* `exit c` : `exit(c)` was called.  `ASSERT` and `ASSERT_DEBUG` call `exit(1)`
  (`/repo/include/core/macros.hpp` 112-118; `DISA_DEBUG` is always defined by `/repo/CMakeLists.txt`);
* `throw` : an exception left the call;
* `ub` : undefined behaviour;
* `diverge` : a `while` loop of the code used up the fuel given to its model. -/
inductive Out (α : Type u) where
  | ok (a : α)
  | exit (code : Nat)
  | throw
  | ub
  | diverge
  deriving DecidableEq, Repr

namespace Out

/-- Sequencing of calls. -/
def bind (x : Out α) (f : α → Out β) : Out β :=
  match x with
  | ok a => f a
  | exit c => exit c
  | throw => throw
  | ub => ub
  | diverge => diverge

instance : Monad Out where
  pure := ok
  bind := bind

@[simp] theorem pure_eq (a : α) : (pure a : Out α) = ok a := rfl
@[simp] theorem ok_bind (a : α) (f : α → Out β) : (ok a >>= f) = f a := rfl
@[simp] theorem exit_bind (c : Nat) (f : α → Out β) : ((exit c : Out α) >>= f) = exit c := rfl
@[simp] theorem throw_bind (f : α → Out β) : ((throw : Out α) >>= f) = throw := rfl
@[simp] theorem ub_bind (f : α → Out β) : ((ub : Out α) >>= f) = ub := rfl
@[simp] theorem diverge_bind (f : α → Out β) : ((diverge : Out α) >>= f) = diverge := rfl
@[simp] theorem map_ok (a : α) (f : α → β) : f <$> (ok a : Out α) = ok (f a) := rfl

instance : LawfulMonad Out := LawfulMonad.mk'
  (id_map := by intro _ x; cases x <;> rfl)
  (pure_bind := by intros; rfl)
  (bind_assoc := by intro _ _ _ x _ _; cases x <;> rfl)
  (bind_pure_comp := by intro _ _ _ x; cases x <;> rfl)

theorem bind_eq_ok {x : Out α} {f : α → Out β} {b : β} :
    (x >>= f) = ok b ↔ ∃ a, x = ok a ∧ f a = ok b := by
  cases x <;> simp

end Out

/-- The maximum of `std::size_t`, the "no data" index (`/repo/docs/conventions.md`, Technical Conventions). -/
def sizeMax : Nat := 2 ^ 64 - 1

/-- Wrap around of `std::size_t` arithmetic. -/
def wrap (n : Nat) : Nat := n % 2 ^ 64

/-- Unsigned `std::size_t` subtraction `a - b`, wrapping around below zero. -/
def usub (a b : Nat) : Nat := if b ≤ a then a - b else a + 2 ^ 64 - b

theorem usub_of_le {a b : Nat} (h : b ≤ a) : usub a b = a - b := by simp [usub, h]

/-- `ASSERT(condition, message)`, `/repo/include/core/macros.hpp` 112-118. -/
def assert (b : Bool) : Out Unit := if b then .ok () else .exit 1

@[simp] theorem assert_true : assert true = .ok () := rfl
@[simp] theorem assert_false : assert false = .exit 1 := rfl

/-- Read `v[i]` of a `std::vector`; out of bounds is undefined. -/
def rd (v : List α) (i : Nat) : Out α :=
  match v[i]? with
  | some a => .ok a
  | none => .ub

/-- Write `v[i] = a` of a `std::vector`; out of bounds is undefined. -/
def wr (v : List α) (i : Nat) (a : α) : Out (List α) :=
  if i < v.length then .ok (v.set i a) else .ub

theorem rd_ok {v : List α} {i : Nat} (h : i < v.length) : rd v i = .ok v[i] := by
  simp [rd, List.getElem?_eq_getElem h]

theorem rd_of_some {v : List α} {i : Nat} {a : α} (h : v[i]? = some a) : rd v i = .ok a := by
  simp [rd, h]

theorem rd_ub {v : List α} {i : Nat} (h : v.length ≤ i) : rd v i = .ub := by
  simp [rd, List.getElem?_eq_none h]

theorem wr_ok {v : List α} {i : Nat} {a : α} (h : i < v.length) : wr v i a = .ok (v.set i a) := by
  simp [wr, h]

theorem wr_ub {v : List α} {i : Nat} {a : α} (h : v.length ≤ i) : wr v i a = .ub := by
  simp [wr, Nat.not_lt.mpr h]

/-- The elements in an iterator range `[b, e)` of a vector; an invalid range is undefined. -/
def slice (v : List α) (b e : Nat) : Out (List α) :=
  if b ≤ e ∧ e ≤ v.length then .ok ((v.drop b).take (e - b)) else .ub

/-- `std::lower_bound` on a range of indices: the number of leading elements below `x`.  The standard requires the range
to be partitioned by `< x`; otherwise the behaviour is undefined. -/
def lowerBound (l : List Nat) (x : Nat) : Out Nat :=
  let k := (l.takeWhile (· < x)).length
  if (l.drop k).all (x ≤ ·) then .ok k else .ub

/-- `std::upper_bound` on a range of indices: the number of leading elements not above `x`, with the same precondition. -/
def upperBound (l : List Nat) (x : Nat) : Out Nat :=
  let k := (l.takeWhile (· ≤ x)).length
  if (l.drop k).all (x < ·) then .ok k else .ub

/-- `std::vector::insert` of one element before position `p`. -/
def insAt (v : List α) (p : Nat) (a : α) : List α := v.take p ++ a :: v.drop p

/-- `std::vector::erase` of the positions `[b, e)`. -/
def cut (v : List α) (b e : Nat) : List α := v.take b ++ v.drop e

/-- `std::vector::resize(n, fill)`. -/
def resizeList (v : List α) (n : Nat) (fill : α) : List α := v.take n ++ List.replicate (n - v.length) fill

/-- Copying `xs` over the positions from `p` on (the destination of `std::transform` or `std::copy`, or an in place
algorithm on a sub range); writing past the end is undefined. -/
def overwrite (v : List α) (p : Nat) (xs : List α) : Out (List α) :=
  if p + xs.length ≤ v.length then .ok (v.take p ++ xs ++ v.drop (p + xs.length)) else .ub

/-- Call a function on each element in order, collecting the results (`std::transform`). -/
def mapOut (f : α → Out β) : List α → Out (List β)
  | [] => .ok []
  | a :: as => do
    let b ← f a
    let bs ← mapOut f as
    pure (b :: bs)

/-- `FOR(i, n) body`, `/repo/include/core/macros.hpp` 153-154, with the loop's mutable state passed through. -/
def loop (n : Nat) (body : Nat → σ → Out σ) (s : σ) : Out σ :=
  match n with
  | 0 => .ok s
  | n + 1 => loop n body s >>= body n

/-- `while(cond) body`, run at most `fuel` times.  Every use below comes with a proof that the fuel suffices. -/
def whileFuel (cond : σ → Bool) (body : σ → Out σ) : Nat → σ → Out σ
  | 0, s => if cond s then .diverge else .ok s
  | fuel + 1, s => if cond s then body s >>= whileFuel cond body fuel else .ok s

/-- Loop invariant rule: the loop returns and the invariant holds at the end. -/
theorem loop_inv {body : Nat → σ → Out σ} (I : Nat → σ → Prop) {n : Nat} {s : σ} (h0 : I 0 s)
    (hs : ∀ i s, i < n → I i s → ∃ s', body i s = .ok s' ∧ I (i + 1) s') :
    ∃ s', loop n body s = .ok s' ∧ I n s' := by
  induction n with
  | zero => exact ⟨s, rfl, h0⟩
  | succ n ih =>
    obtain ⟨s', h1, h2⟩ := ih (fun i s hi => hs i s (by omega))
    obtain ⟨s'', h3, h4⟩ := hs n s' (by omega) h2
    exact ⟨s'', by simp [loop, h1, h3], h4⟩

/-- Loop invariant rule for partial correctness. -/
theorem loop_inv_of_ok {body : Nat → σ → Out σ} (I : Nat → σ → Prop) {n : Nat} {s t : σ} (h0 : I 0 s)
    (hs : ∀ i s s', i < n → I i s → body i s = .ok s' → I (i + 1) s') (h : loop n body s = .ok t) : I n t := by
  induction n generalizing t with
  | zero => simp only [loop, Out.ok.injEq] at h; exact h ▸ h0
  | succ n ih =>
    simp only [loop, Out.bind_eq_ok] at h
    obtain ⟨a, ha, hb⟩ := h
    exact hs n a t (by omega) (ih (fun i s s' hi => hs i s s' (by omega)) ha) hb

/-- A loop whose body fails at iteration `i` fails. -/
theorem loop_fail {body : Nat → σ → Out σ} {n i : Nat} {s s' : σ} (hi : i < n) (h : loop i body s = .ok s')
    (hub : body i s' = .ub) : loop n body s = .ub := by
  induction n with
  | zero => omega
  | succ n ih =>
    by_cases hin : i = n
    · subst hin; simp [loop, h, hub]
    · simp [loop, ih (by omega)]

/-- A loop whose steps return or stop with the outcome `e`, one of them surely with `e`, ends with `e`. -/
theorem loop_stop {body : Nat → σ → Out σ} (e : Out σ) (he : ∀ f : σ → Out σ, (e >>= f) = e) (P : σ → Prop) {n : Nat}
    {s : σ} (h0 : P s) (hs : ∀ i s, i < n → P s → body i s = e ∨ ∃ s', body i s = .ok s' ∧ P s')
    {j : Nat} (hj : j < n) (hju : ∀ s, P s → body j s = e) : loop n body s = e := by
  have key : ∀ m, m ≤ n → loop m body s = e ∨ ∃ s', loop m body s = .ok s' ∧ P s' := by
    intro m
    induction m with
    | zero => intro _; exact .inr ⟨s, rfl, h0⟩
    | succ m ih =>
      intro hm
      rcases ih (by omega) with h | ⟨s', h, hp⟩
      · exact .inl (by simp [loop, h, he])
      · simp only [loop, h, Out.ok_bind]
        exact hs m s' (by omega) hp
  have stay : ∀ m, j < m → m ≤ n → loop m body s = e := by
    intro m
    induction m with
    | zero => intro h; omega
    | succ m ih =>
      intro h1 h2
      by_cases hjm : j = m
      · subst hjm
        rcases key j (by omega) with h | ⟨s', h, hp⟩
        · simp [loop, h, he]
        · simp only [loop, h, Out.ok_bind]; exact hju s' hp
      · simp [loop, ih (by omega) (by omega), he]
  exact stay n hj (Nat.le_refl _)

theorem mapOut_ok {f : α → Out β} {g : α → β} {l : List α} (h : ∀ a ∈ l, f a = .ok (g a)) :
    mapOut f l = .ok (l.map g) := by
  induction l with
  | nil => rfl
  | cons a l ih =>
    simp only [mapOut, h a (by simp), ih (fun a ha => h a (by simp [ha])), Out.ok_bind, Out.pure_eq, List.map_cons]

theorem slice_ok {v : List α} {b e : Nat} (h1 : b ≤ e) (h2 : e ≤ v.length) :
    slice v b e = .ok ((v.drop b).take (e - b)) := by simp [slice, h1, h2]

end Disa
