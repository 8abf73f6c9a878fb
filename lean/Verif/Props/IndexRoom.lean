import Verif.Props.IndexTypes
import Mathlib.Data.Finset.Card
import Mathlib.Data.Finset.Range

/-!
# Property C228: the index type of `CSR_Data` limits the number of elements
-/

namespace Disa.Props

open Disa Spec Sparse IntTy

variable {α : Type}

/-! ### Counting behind the largest value -/

theorem mapOut_some_ub {β γ : Type} {f : β → Out γ} {l : List β} (h : ∀ a ∈ l, (∃ b, f a = .ok b) ∨ f a = .ub) {a : β} (ha : a ∈ l)
    (hu : f a = .ub) : mapOut f l = .ub := by
  induction l with
  | nil => cases ha
  | cons x l ih =>
    unfold mapOut
    rcases h x (by simp) with ⟨b, hb⟩ | hb
    · rw [hb]
      rcases List.mem_cons.mp ha with rfl | ha
      · rw [hu] at hb
        cases hb
      · simp only [Out.ok_bind]
        rw [ih (fun c hc => h c (by simp [hc])) ha]
        rfl
    · rw [hb]
      rfl

theorem IntTy.min_nonpos (t : IntTy) : t.min ≤ 0 := by
  unfold IntTy.min
  split
  · have : (0 : Int) < 2 ^ (t.bits - 1) := by positivity
    omega
  · exact le_rfl

theorem IntTy.max_nonneg (t : IntTy) : 0 ≤ t.max := by
  unfold IntTy.max
  have e1 : (0 : Int) < 2 ^ (t.bits - 1) := by positivity
  have e2 : (0 : Int) < 2 ^ t.bits := by positivity
  split <;> omega

/-- The value behind the largest one is the smallest one. -/
theorem IntTy.cast_behind {t : IntTy} (h : 1 ≤ t.bits) : t.cast (t.max + 1) = t.min := by
  obtain ⟨b, hb⟩ : ∃ b, t.bits = b + 1 := ⟨t.bits - 1, by omega⟩
  have e1 : (0 : Int) < 2 ^ b := by positivity
  have e2 : (2 : Int) ^ (b + 1) = 2 * 2 ^ b := by ring
  unfold IntTy.cast IntTy.max IntTy.min
  rw [hb, Nat.add_sub_cancel]
  cases t.signed
  · simp only [Bool.false_eq_true, if_false, sub_add_cancel, Int.emod_self]
    rw [if_pos (by omega)]
  · simp only [if_true, sub_add_cancel]
    rw [Int.emod_eq_of_lt e1.le (by omega), if_neg (by omega)]
    omega

/-- Counting behind the largest value is undefined for the signed types that are as wide as `int`. -/
theorem IntTy.incr_ub {t : IntTy} (h : t.signed = true) (hb : 32 ≤ t.bits) : t.incr t.max = .ub := by
  unfold IntTy.incr IntTy.promote
  rw [if_neg (show ¬ t.bits < 32 by omega)]
  unfold IntTy.arith
  rw [if_pos h, if_neg (by omega)]
  rfl

/-- The types that count on with the smallest value: the narrow ones, and the unsigned ones that are as wide as `int`. -/
def Wraps (t : IntTy) : Prop := 1 ≤ t.bits ∧ (t.bits ≤ 16 ∨ t.signed = false ∧ 32 ≤ t.bits)

theorem IntTy.incr_wraps {t : IntTy} (h : Wraps t) : t.incr t.max = .ok t.min := by
  obtain ⟨hb, h⟩ := h
  unfold IntTy.incr
  rcases h with h | ⟨h, h32⟩
  · have e : t.promote = IntTy.int := by
      unfold IntTy.promote
      rw [if_pos (by omega)]
    have hm := IntTy.max_lt t
    have h16 : (2 : Int) ^ t.bits ≤ 2 ^ 16 := pow_le_pow_right₀ (by norm_num) h
    have hi : IntTy.int.max = 2147483647 := by decide
    have h0 := IntTy.max_nonneg t
    have h1 := IntTy.min_nonpos IntTy.int
    norm_num at h16
    rw [e]
    unfold IntTy.arith
    rw [if_pos (show IntTy.int.signed = true from rfl), if_pos ⟨by omega, by omega⟩, Out.ok_bind, IntTy.cast_behind hb]
    rfl
  · have e : t.promote = t := by
      unfold IntTy.promote
      rw [if_neg (by omega)]
    rw [e]
    unfold IntTy.arith
    rw [if_neg (by rw [h]; simp), IntTy.cast_behind hb, Out.ok_bind]
    have : t.min = 0 := by
      unfold IntTy.min
      rw [if_neg (by rw [h]; simp)]
    rw [this, IntTy.cast_of_le le_rfl (IntTy.max_nonneg t)]
    rfl

/-! ### Histories -/

variable [Zero α]

theorem length_insAt {β : Type} (l : List β) (p : Nat) (a : β) : (insAt l p a).length = l.length + 1 := by
  unfold insAt
  simp only [List.length_append, List.length_cons, List.length_take, List.length_drop]
  omega

/-- One call, in a state and with arguments that the types hold, if the type of the indices holds the number of elements. -/
theorem step_room {A T : IntTy} {m : CsrData α} {L : Rows α} (h : m.Rep L) (hs : Sorted L) (hb : Bounded m.colSize L)
    (op : CsrOp α) (hop : op.Fits) (hA : Holds A op) (hT : Holds T op) (hLA : (L.length : Int) + 1 ≤ A.max)
    (hLT : (L.length : Int) ≤ T.max) (hmA : (m.colSize : Int) ≤ A.max) (hmT : (m.colSize : Int) ≤ T.max)
    (hn : ∀ m' b, csrStep m op = .ok (m', b) → (m'.cols.length : Int) ≤ T.max)
    (hr : ∀ r c, op = .resize r c → c < m.colSize → (m.cols.length : Int) ≤ T.toSigned.max) :
    typedStep T (emb m) A op = (fun s => (emb s.1, s.2)) <$> csrStep m op := by
  have key : ∀ i j v, i + 1 < sizeMax → j < sizeMax → (i : Int) + 2 ≤ A.max → (i : Int) + 2 ≤ T.max → (j : Int) + 1 ≤ A.max →
      (j : Int) + 1 ≤ T.max → (∀ m' it b, CsrData.insert m i j v = .ok (m', it, b) → (m'.cols.length : Int) ≤ T.max) →
      j ∉ keys (row L i) → (L.flatten.length : Int) + 1 ≤ T.max := by
    intro i j v h1 h2 h3 h4 h5 h6 h7 h8
    obtain ⟨m2, p, r2, -, e2⟩ := insert_form (A := A) (T := T) h hs hb h1 h2 hLA hLT h3 (by omega) hmA hmT h5 h6 v
    have h9 := h7 _ _ _ (e2 h8).2
    have hfl : (pad L (i + 1)).flatten.length = L.flatten.length := by
      unfold pad; simp
    rw [length_insAt, r2.lengths.1, hfl] at h9
    exact_mod_cast h9
  cases op with
  | insert i j v =>
    have hn' : ∀ m' it b, CsrData.insert m i j v = .ok (m', it, b) → (m'.cols.length : Int) ≤ T.max := fun m' it b hh =>
      hn m' (some b) (by unfold csrStep; simp only; rw [hh]; rfl)
    unfold typedStep csrStep
    simp only
    rw [insert_typed h hs hb hop.1 hop.2 hLA hLT hA.1 (by have := hT.1; omega) hmA hmT hA.2 hT.2
      (key i j v hop.1 hop.2 hA.1 hT.1 hA.2 hT.2 hn')]
    cases CsrData.insert m i j v <;> rfl
  | insertOrAssign i j v =>
    have hn' : ∀ m' it b, CsrData.insert m i j v = .ok (m', it, b) → j ∉ keys (row L i) → (m'.cols.length : Int) ≤ T.max := by
      intro m' it b hh hj
      obtain ⟨m2, p, r2, -, e2⟩ := insert_form (A := A) (T := T) h hs hb hop.1 hop.2 hLA hLT hA.1 (by have := hT.1; omega) hmA hmT hA.2 hT.2 v
      rw [(e2 hj).2] at hh
      simp only [Out.ok.injEq, Prod.mk.injEq] at hh
      obtain ⟨rfl, rfl, rfl⟩ := hh
      refine hn _ (some true) ?_
      unfold csrStep CsrData.insertOrAssign
      simp only
      rw [(e2 hj).2]
      rfl
    unfold typedStep csrStep
    simp only
    rw [insertOrAssign_typed h hs hb hop.1 hop.2 hLA hLT hA.1 (by have := hT.1; omega) hmA hmT hA.2 hT.2 (fun hj =>
      key i j v hop.1 hop.2 hA.1 hT.1 hA.2 hT.2 (fun m' it b hh => hn' m' it b hh hj) hj)]
    cases CsrData.insertOrAssign m i j v <;> rfl
  | resize r c =>
    unfold typedStep csrStep
    simp only
    rw [resize_typed h hs hb hop.1 hA.1 (by have := hT.1; omega) hLT hA.2 hT.2 hmT (fun hc => ⟨hop.2, by
      rw [← h.lengths.1]
      exact hr r c rfl hc⟩)]
    cases CsrData.resize m r c <;> rfl

theorem run_room {T : IntTy} (ops : List (IntTy × CsrOp α)) {m : CsrData α} {L : Rows α} (h : m.Rep L) (hs : Sorted L)
    (hb : Bounded m.colSize L) (hop : ∀ o ∈ ops, o.2.Fits ∧ Holds T o.2 ∧ ∀ p ∈ ops, Holds p.1 o.2)
    (hT : (L.length : Int) + 1 ≤ T.max ∧ (m.colSize : Int) ≤ T.max)
    (hA : ∀ p ∈ ops, (L.length : Int) + 1 ≤ p.1.max ∧ (m.colSize : Int) ≤ p.1.max)
    (hn : ∀ k m' bs, csrRun m ((ops.take k).map (·.2)) = .ok (m', bs) → (m'.cols.length : Int) ≤ T.max ∧
      ∀ t r c, ops[k]? = some (t, .resize r c) → c < m'.colSize → (m'.cols.length : Int) ≤ T.toSigned.max) :
    typedRun T (emb m) ops = (fun s => (emb s.1, s.2)) <$> csrRun m (ops.map (·.2)) := by
  induction ops generalizing m L with
  | nil => rfl
  | cons o ops ih =>
    obtain ⟨f1, f2, f3⟩ := hop o (by simp)
    have hn1 : ∀ m' b, csrStep m o.2 = .ok (m', b) → (m'.cols.length : Int) ≤ T.max := fun m' b hh => by
      refine (hn 1 m' [b] ?_).1
      simp only [List.take_succ_cons, List.take_zero, List.map_cons, List.map_nil, csrRun, hh, Out.ok_bind]
      rfl
    unfold typedRun
    rw [List.map_cons, csrRun, step_room h hs hb o.2 f1 (f3 o (by simp)) f2 (hA o (by simp)).1 (by omega) (hA o (by simp)).2 hT.2
      hn1 (fun r c he => (hn 0 m [] rfl).2 o.1 r c (by rw [← he]; rfl))]
    obtain ⟨m1, h1, -⟩ := csrStep_ok (s := ⟨L.length, m.colSize, entry L⟩) ⟨L, h, hs, hb, rfl, rfl, rfl⟩ o.2 f1
    obtain ⟨L1, g1, g2, g3, g4, g5⟩ := step_sizes h hs hb o.2 f1 h1
    simp only [h1, Out.map_ok, Out.ok_bind]
    rw [ih g1 g2 g3 (fun q hq => ⟨(hop q (by simp [hq])).1, (hop q (by simp [hq])).2.1, fun p hp =>
      (hop q (by simp [hq])).2.2 p (by simp [hp])⟩) (g5 T f2 hT.1 hT.2) (fun p hp => g5 p.1 (f3 p (by simp [hp]))
        (hA p (by simp [hp])).1 (hA p (by simp [hp])).2) (fun k m' bs hh => by
          have := hn (k + 1) m' (_ :: bs) (by
            simp only [List.take_succ_cons, List.map_cons, csrRun, h1, Out.ok_bind, hh]
            rfl)
          simpa using this)]
    cases csrRun m1 (ops.map (·.2)) <;> rfl

/-! ### The property -/

/-- C228 as stated in the properties file: an index type that holds the rows and columns is as good as any other. -/
def C228 : Prop := ∀ (A T : IntTy) (ops : List (CsrOp Int)), A = IntTy.int ∨ A = IntTy.size →
  (∀ op ∈ ops, op.Fits ∧ Holds A op ∧ Holds T op) →
  typedRun T TypedCsr.new (ops.map fun op => (A, op)) = (fun s => (emb s.1, s.2)) <$> csrRun CsrData.new ops

/-- Eight rows of sixteen elements. -/
def eightRows : List (CsrOp Int) := (List.range 128).map fun k => .insert (k / 16) (k % 16) 1

/-- C228 fails: an eight bit type holds the rows and columns of a matrix of 8 by 16 elements, but not their number. -/
theorem c228_violated : ¬ C228 := by
  intro h
  have := h IntTy.int ⟨8, true⟩ eightRows (.inl rfl) (by
    intro op hop
    obtain ⟨k, hk, rfl⟩ := List.mem_map.mp hop
    have hk := List.mem_range.mp hk
    have e1 : IntTy.int.max = 2147483647 := by decide
    have e2 : IntTy.max ⟨8, true⟩ = 127 := by decide
    simp only [CsrOp.Fits, Holds, e1, e2, sizeMax]
    omega)
  revert this
  decide +kernel

/-- Proved part of C228.  Missing: more elements than the type of the indices holds, and fewer columns when there are more
elements than the signed type holds. -/
theorem c228_partial (T : IntTy) (ops : List (IntTy × CsrOp α)) (hop : ∀ o ∈ ops, o.2.Fits ∧ Holds T o.2 ∧ ∀ p ∈ ops, Holds p.1 o.2)
    (hn : ∀ k m bs, csrRun CsrData.new ((ops.take k).map (·.2)) = .ok (m, bs) → (m.cols.length : Int) ≤ T.max ∧
      ∀ t r c, ops[k]? = some (t, .resize r c) → c < m.colSize → (m.cols.length : Int) ≤ T.toSigned.max) :
    typedRun T TypedCsr.new ops = (fun s => (emb s.1, s.2)) <$> csrRun CsrData.new (ops.map (·.2)) := by
  have one : ∀ (t : IntTy) (op : CsrOp α), Holds t op → (1 : Int) ≤ t.max := by
    intro t op h
    cases op <;> (have := h.1; omega)
  cases ops with
  | nil => rfl
  | cons o ops =>
    obtain ⟨-, f2, f3⟩ := hop o (by simp)
    obtain ⟨L, h1, h2, h3, h4, -⟩ := agrees_new (α := α)
    have h4 : L = [] := List.length_eq_zero_iff.mp h4
    subst h4
    refine run_room (o :: ops) (m := CsrData.new) h1 h2 h3 hop ?_ ?_ hn
    · have := one T o.2 f2
      simp [CsrData.new]
      omega
    · intro p hp
      have := one p.1 o.2 (f3 p hp)
      simp [CsrData.new]
      omega

/-- What happens outside the proved part: with a signed type as wide as `int`, storing one element more than it holds is undefined. -/
theorem c228_wide {A T : IntTy} (hT : T.signed = true) (hbits : 32 ≤ T.bits) {m m' : CsrData α} (hm : Reached m)
    (hfull : (m.cols.length : Int) = T.max) {i j : Nat} {it : CsrIter} {v : α} (hop : (CsrOp.insert i j v).Fits)
    (hA : Holds A (.insert i j v)) (hT' : Holds T (.insert i j v)) (hr : (CsrData.sizeRow m : Int) + 1 ≤ A.max ∧ (CsrData.sizeRow m : Int) ≤ T.max)
    (hc : (m.colSize : Int) ≤ A.max ∧ (m.colSize : Int) ≤ T.max) (hnew : CsrData.insert m i j v = .ok (m', it, true)) :
    TypedCsr.insert A T (emb m) i j v = .ub := by
  obtain ⟨-, L, h, hs, hb, -⟩ := reached_agrees hm
  rw [csr_sizeRow, h.sizeRow] at hr
  rw [h.lengths.1] at hfull
  obtain ⟨m2, p, r2, e1, e2⟩ := insert_form (A := A) (T := T) h hs hb hop.1 hop.2 hr.1 hr.2 hA.1 (by have := hT'.1; omega) hc.1 hc.2 hA.2 hT'.2 v
  have hj : j ∉ keys (row L i) := by
    intro hj
    rw [(e1 hj).2] at hnew
    simp at hnew
  have hfl : (pad L (i + 1)).flatten.length = L.flatten.length := by
    unfold pad; simp
  have hpl : (pad L (i + 1)).length = max L.length (i + 1) := pad_length L (i + 1)
  have ho := r2.off_eq (by intro hc; rw [hc, List.length_nil] at hpl; omega)
  rw [(e2 hj).1, mapOut_some_ub (a := T.max)]
  · rfl
  · intro x hx
    obtain ⟨y, hy, rfl⟩ := List.mem_map.mp (List.mem_of_mem_drop hx)
    rw [ho] at hy
    obtain ⟨k, -, rfl⟩ := List.mem_map.mp hy
    have hk := psum_le (pad L (i + 1)) k
    by_cases he : ((psum (pad L (i + 1)) k : Nat) : Int) = T.max
    · rw [he]
      exact .inr (IntTy.incr_ub hT hbits)
    · exact .inl ⟨_, IntTy.incr_nat (by omega)⟩
  · refine List.mem_of_getElem? (i := (pad L (i + 1)).length - (i + 1)) ?_
    show ((m2.off.map (Nat.cast : Nat → Int)).drop (i + 1))[_]? = _
    rw [List.getElem?_drop, List.getElem?_map, ho, show i + 1 + ((pad L (i + 1)).length - (i + 1)) = (pad L (i + 1)).length by omega,
      offs_getElem? _ le_rfl, psum_length, hfl, ← hfull]
    rfl
  · exact IntTy.incr_ub hT hbits

/-- A row that does not use all columns has fewer elements. -/
theorem row_room {r : List (Nat × α)} (hr : (keys r).Pairwise (· < ·)) {N j : Nat} (hb : ∀ e ∈ r, e.1 < N) (hj : j < N) (hjr : j ∉ keys r) :
    r.length < N := by
  have h1 : (keys r).toFinset ⊆ (Finset.range N).erase j := by
    intro k hk
    have hk := List.mem_toFinset.mp hk
    obtain ⟨e, he, rfl⟩ := List.mem_map.mp hk
    exact Finset.mem_erase.mpr ⟨fun q => hjr (q ▸ hk), Finset.mem_range.mpr (hb e he)⟩
  have h2 := Finset.card_le_card h1
  rw [List.toFinset_card_of_nodup (hr.imp Nat.ne_of_lt), Finset.card_erase_of_mem (Finset.mem_range.mpr hj), Finset.card_range] at h2
  have h3 : (keys r).length = r.length := by simp [keys]
  omega

/-- With the other types the element is stored, but the number of elements in the last offset becomes the smallest value of the type,
and the next access to the last row is undefined if the type is signed or the element is in this row. -/
theorem c228_wraps {A T : IntTy} (hT : Wraps T) {m m' : CsrData α} (hm : Reached m)
    (hfull : (m.cols.length : Int) = T.max) {i j : Nat} {it : CsrIter} {v : α} (hop : (CsrOp.insert i j v).Fits)
    (hA : Holds A (.insert i j v)) (hT' : Holds T (.insert i j v)) (hr : (CsrData.sizeRow m : Int) + 1 ≤ A.max ∧ (CsrData.sizeRow m : Int) ≤ T.max)
    (hc : (m.colSize : Int) ≤ A.max ∧ (m.colSize : Int) ≤ T.max) (hnew : CsrData.insert m i j v = .ok (m', it, true)) :
    ∃ n, TypedCsr.insert A T (emb m) i j v = .ok (n, it, true) ∧ n.cols = m'.cols.map Nat.cast ∧ n.vals = m'.vals ∧
      n.off.length = CsrData.sizeRow m' + 1 ∧ n.off.getLast? = some T.min ∧
      ((T.signed = true ∨ CsrData.sizeRow m' = i + 1) → ∀ c : Nat, TypedCsr.lowerBound A T n (CsrData.sizeRow m' - 1 : Nat) c = .ub) := by
  obtain ⟨-, L, h, hs, hb, -⟩ := reached_agrees hm
  rw [csr_sizeRow, h.sizeRow] at hr
  rw [h.lengths.1] at hfull
  obtain ⟨m2, p, r2, e1, e2⟩ := insert_form (A := A) (T := T) h hs hb hop.1 hop.2 hr.1 hr.2 hA.1 (by have := hT'.1; omega) hc.1 hc.2 hA.2 hT'.2 v
  have hj : j ∉ keys (row L i) := by
    intro hj
    rw [(e1 hj).2] at hnew
    simp at hnew
  have hfl : (pad L (i + 1)).flatten.length = L.flatten.length := by
    unfold pad; simp
  have hpl : (pad L (i + 1)).length = max L.length (i + 1) := pad_length L (i + 1)
  have ho := r2.off_eq (by intro hc; rw [hc, List.length_nil] at hpl; omega)
  obtain ⟨R, hR⟩ : ∃ R, R = (pad L (i + 1)).length := ⟨_, rfl⟩
  have hol : m2.off.length = R + 1 := by rw [ho, hR]; simp [Disa.offs]
  have hget : ∀ k, k ≤ R → m2.off[k]? = some (psum (pad L (i + 1)) k) := fun k hk => by
    rw [ho]
    exact offs_getElem? _ (by omega)
  rw [(e2 hj).2] at hnew
  simp only [Out.ok.injEq, Prod.mk.injEq, and_true] at hnew
  obtain ⟨rfl, rfl⟩ := hnew
  obtain ⟨g, hg⟩ : ∃ g : Int → Int, g = fun x => if x = T.max then T.min else x + 1 := ⟨_, rfl⟩
  have hmap : mapOut T.incr ((emb m2).off.drop (i + 1)) = .ok (((emb m2).off.drop (i + 1)).map g) := by
    refine mapOut_ok fun x hx => ?_
    obtain ⟨y, hy, rfl⟩ := List.mem_map.mp (List.mem_of_mem_drop hx)
    rw [ho] at hy
    obtain ⟨k, -, rfl⟩ := List.mem_map.mp hy
    have hk := psum_le (pad L (i + 1)) k
    rw [hg]
    simp only
    split
    · rename_i he
      rw [he]
      exact IntTy.incr_wraps hT
    · rw [IntTy.incr_nat (by omega)]
      simp
  rw [(e2 hj).1, hmap, Out.ok_bind]
  obtain ⟨off, hoff⟩ : ∃ off, off = (emb m2).off.take (i + 1) ++ ((emb m2).off.drop (i + 1)).map g := ⟨_, rfl⟩
  have hlen : off.length = R + 1 := by
    rw [hoff]
    have : (emb m2).off.length = R + 1 := by rw [← hol]; exact List.length_map _
    simp only [List.length_append, List.length_take, List.length_map, List.length_drop, this]
    omega
  have hsz : CsrData.sizeRow (⟨m2.off.take (i + 1) ++ (m2.off.drop (i + 1)).map (· + 1), insAt m2.cols p j, insAt m2.vals p v,
      m2.colSize⟩ : CsrData α) = R := by
    unfold CsrData.sizeRow
    have hl : (m2.off.take (i + 1) ++ (m2.off.drop (i + 1)).map (· + 1)).length = R + 1 := by
      simp only [List.length_append, List.length_take, List.length_map, List.length_drop, hol]
      omega
    have hne : (m2.off.take (i + 1) ++ (m2.off.drop (i + 1)).map (· + 1)).isEmpty = false := by
      rw [List.isEmpty_eq_false_iff]
      intro hh
      rw [hh] at hl
      simp at hl
    rw [hne, hl]
    rfl
  have hoffk : ∀ k, k ≤ R → off[k]? = some (if k < i + 1 then ((psum (pad L (i + 1)) k : Nat) : Int) else g (psum (pad L (i + 1)) k : Nat)) := by
    intro k hk
    have hk' : (emb m2).off[k]? = some ((psum (pad L (i + 1)) k : Nat) : Int) := by
      show (m2.off.map (Nat.cast : Nat → Int))[k]? = _
      rw [List.getElem?_map, hget k hk]
      rfl
    have htl : ((emb m2).off.take (i + 1)).length = i + 1 := by
      have : (emb m2).off.length = R + 1 := by rw [← hol]; exact List.length_map _
      rw [List.length_take, this]
      omega
    rw [hoff, List.getElem?_append, htl]
    split
    · rw [List.getElem?_take_of_lt (by assumption), hk']
    · rw [List.getElem?_map, List.getElem?_drop, show i + 1 + (k - (i + 1)) = k by omega, hk']
      rfl
  have hlast : off[R]? = some T.min := by
    rw [hoffk R le_rfl, if_neg (by omega), hg, hR, psum_length, hfl]
    simp only
    rw [if_pos hfull]
  rw [hsz, ← hoff]
  refine ⟨_, rfl, (by simp [emb, insAt_map]), rfl, hlen, ?_, fun hcase c => ?_⟩
  · rw [List.getLast?_eq_getElem?, hlen]
    exact hlast
  have hcm := (IntTy.max_common A IntTy.int).1
  have hRA : (R : Int) ≤ A.max := by
    have := hA.1
    omega
  have hRT : (R : Int) ≤ T.max := by
    have := hT'.1
    omega
  have hd : ∀ n : Nat, decide ((0 : Int) ≤ n) = true := by intro n; simp
  have hrows : TypedCsr.sizeRow T (⟨off, insAt (emb m2).cols p (j : Int), insAt m2.vals p v, (m2.colSize : Int)⟩ : TypedCsr α) = (R : Int) := by
    unfold TypedCsr.sizeRow
    have : off.isEmpty = false := by
      rw [List.isEmpty_eq_false_iff]
      intro hh
      rw [hh] at hlen
      simp at hlen
    simp only [this, Bool.not_false, if_true, hlen]
    rw [show (((R + 1 : Nat) : Int) - 1) = (R : Int) by omega, IntTy.cast_nat hRT]
  have hrd : ∀ (k : Nat) (x : Int), off[k]? = some x → TypedCsr.rdInt off (k : Int) = .ok x := by
    intro k x hx
    unfold TypedCsr.rdInt
    rw [if_pos (by omega), Int.toNat_natCast, rd_of_some hx]
  unfold TypedCsr.lowerBound
  rw [hd, hd, assert_true, Out.ok_bind, Out.ok_bind, hrows, IntTy.lt_nat (by omega) hRT, decide_eq_true (by omega),
    show ((R - 1 : Nat) : Int) + 1 = (R : Int) by omega, IntTy.arith_nat (by omega)]
  simp only [if_true, Out.ok_bind, hrd _ _ (hoffk (R - 1) (by omega)), hrd _ _ hlast]
  obtain ⟨b, hb'⟩ : ∃ b : Int, b = if R - 1 < i + 1 then ((psum (pad L (i + 1)) (R - 1) : Nat) : Int) else
    g (psum (pad L (i + 1)) (R - 1) : Nat) := ⟨_, rfl⟩
  rw [← hb']
  have : TypedCsr.sliceInt (insAt (emb m2).cols p (j : Int)) b T.min = .ub := by
    unfold TypedCsr.sliceInt
    split
    · rename_i hpos
      rcases hcase with hsg | hlastrow
      · exfalso
        have := hpos.2
        unfold IntTy.min at this
        rw [if_pos hsg] at this
        have e1 : (0 : Int) < 2 ^ (T.bits - 1) := by positivity
        omega
      · have hmin : T.min = 0 := by
          have := IntTy.min_nonpos T
          omega
        rw [if_pos (by omega)] at hb'
        unfold slice
        rw [if_neg]
        rw [hmin]
        intro hle
        have hb0 : psum (pad L (i + 1)) i = 0 := by
          have := hle.1
          rw [show R - 1 = i by omega] at hb'
          omega
        have hil : i < (pad L (i + 1)).length := by omega
        have hps := psum_succ (pad L (i + 1)) hil
        have hrow : (pad L (i + 1))[i] = row L i := by rw [← row_of_lt hil, row_pad]
        rw [hb0, Nat.zero_add, hrow, psum_of_ge _ (by omega), hfl] at hps
        have := row_room (hs i) (N := max m.colSize (j + 1)) (fun e he => lt_of_lt_of_le (hb i e he) (le_max_left _ _))
          (lt_of_lt_of_le (Nat.lt_succ_self j) (le_max_right _ _)) hj
        have := hT'.2
        omega
    · rfl
  rw [this]
  rfl

/-! ### Concrete cases -/

theorem reached_step {m m' : CsrData α} {op : CsrOp α} {b : Option Bool} (h : Reached m) (hop : op.Fits) (hs : csrStep m op = .ok (m', b)) :
    Reached m' := by
  obtain ⟨ops, bs, h1, h2⟩ := h
  refine ⟨ops ++ [op], bs ++ [b], ?_, ?_⟩
  · intro o ho
    rcases List.mem_append.mp ho with ho | ho
    · exact h1 o ho
    · rw [List.mem_singleton.mp ho]
      exact hop
  · clear h1
    generalize (CsrData.new : CsrData α) = m0 at *
    induction ops generalizing m0 bs with
    | nil =>
      simp only [csrRun, Out.ok.injEq, Prod.mk.injEq] at h2
      obtain ⟨rfl, rfl⟩ := h2
      simp only [List.nil_append, csrRun, hs, Out.ok_bind]
      rfl
    | cons o ops ih =>
      simp only [csrRun, List.cons_append] at h2 ⊢
      cases ho : csrStep m0 o with
      | ok t =>
        obtain ⟨m1, b1⟩ := t
        rw [ho] at h2
        simp only [Out.ok_bind] at h2 ⊢
        cases hr : csrRun m1 ops with
        | ok u =>
          obtain ⟨m2, bs2⟩ := u
          rw [hr] at h2
          simp only [Out.ok_bind, Out.pure_eq, Out.ok.injEq, Prod.mk.injEq] at h2
          obtain ⟨rfl, rfl⟩ := h2
          rw [ih _ _ hr]
          rfl
        | _ =>
          rw [hr] at h2
          cases h2
      | _ =>
        rw [ho] at h2
        cases h2

/-- Data with any number of elements, `K` in each row. -/
theorem filled (v : α) {K : Nat} (hK : 0 < K) (n : Nat) (hn : n + K + 1 < sizeMax) : ∃ (m : CsrData α) (s : SizedMap α),
    Reached m ∧ Agrees m s ∧ m.cols.length = n ∧ s.rows ≤ n / K + 1 ∧ s.columns ≤ K ∧ ∀ i j, s.map i j ≠ none ↔ j < K ∧ i * K + j < n := by
  induction n with
  | zero =>
    refine ⟨CsrData.new, _, ⟨[], [], by simp, rfl⟩, agrees_new, rfl, by simp, by simp, fun i j => ?_⟩
    simp
  | succ n ih =>
    obtain ⟨m, s, h1, h2, h3, h4, h5, h6⟩ := ih (by omega)
    have hd := Nat.div_add_mod n K
    have hm := Nat.mod_lt n hK
    have hdl := Nat.div_le_self n K
    have hop : (CsrOp.insert (n / K) (n % K) v).Fits := ⟨by omega, by omega⟩
    have hnone : s.map (n / K) (n % K) = none := by
      by_contra hc
      have := ((h6 _ _).mp hc).2
      rw [Nat.mul_comm] at this
      omega
    obtain ⟨m', k1, k2⟩ := csrStep_ok h2 (.insert (n / K) (n % K) v) hop
    have hmono : n / K ≤ (n + 1) / K := Nat.div_le_div_right (by omega)
    refine ⟨m', _, reached_step h1 hop k1, k2, ?_, ?_, ?_, fun i j => ?_⟩
    · obtain ⟨L, g1, g2, g3, -, -, g6⟩ := h2
      obtain ⟨m1, b, q1, q2, q3, q4⟩ := g1.insert g2 hop.1 hop.2 v
      rw [csrStep, csr_insert g1 g2 hop.1 hop.2 v q1] at k1
      simp only [Out.ok_bind, Out.pure_eq, Out.ok.injEq, Prod.mk.injEq] at k1
      rw [← k1.1, q2.lengths.1, insRows_flat, if_neg (by rw [mem_keys_iff, g6, hnone]; simp), ← g1.lengths.1, h3]
    · simp only [sizedStep]
      omega
    · simp only [sizedStep]
      omega
    · simp only [sizedStep, hnone, Option.isNone_none, if_true]
      have e := h6 i j
      have key : j < K ∧ i * K + j < n + 1 ↔ (i = n / K ∧ j = n % K) ∨ j < K ∧ i * K + j < n := by
        constructor
        · rintro ⟨a, b⟩
          by_cases he : i * K + j < n
          · exact .inr ⟨a, he⟩
          · have he : n = j + K * i := by rw [Nat.mul_comm i K] at b he; omega
            refine .inl ⟨?_, ?_⟩
            · rw [he, Nat.add_mul_div_left _ _ hK, Nat.div_eq_of_lt a, Nat.zero_add]
            · rw [he, Nat.add_mul_mod_self_left, Nat.mod_eq_of_lt a]
        · rintro (⟨rfl, rfl⟩ | ⟨a, b⟩)
          · refine ⟨hm, ?_⟩
            rw [Nat.mul_comm]
            omega
          · exact ⟨a, by omega⟩
      rw [key, ← e]
      unfold Map.put
      by_cases hij : i = n / K ∧ j = n % K
      · simp [hij]
      · simp [hij]

/-- The hypotheses of `c228_wide`, for `int`: rows of 2¹⁶ elements. -/
example : ∃ (m m' : CsrData Int) (it : CsrIter), Reached m ∧ (m.cols.length : Int) = IntTy.int.max ∧
    (CsrOp.insert (2 ^ 15 - 1) (2 ^ 16 - 1) (1 : Int)).Fits ∧ Holds IntTy.int (.insert (2 ^ 15 - 1) (2 ^ 16 - 1) (1 : Int)) ∧
    (CsrData.sizeRow m : Int) + 1 ≤ IntTy.int.max ∧ (m.colSize : Int) ≤ IntTy.int.max ∧
    CsrData.insert m (2 ^ 15 - 1) (2 ^ 16 - 1) 1 = .ok (m', it, true) := by
  obtain ⟨m, s, h1, h2, h3, h4, h5, h6⟩ := filled (1 : Int) (K := 2 ^ 16) (by norm_num) (2 ^ 31 - 1) (by unfold sizeMax; norm_num)
  have hop : (CsrOp.insert (2 ^ 15 - 1) (2 ^ 16 - 1) (1 : Int)).Fits := by
    simp [CsrOp.Fits, sizeMax]
  have hmax : IntTy.int.max = 2147483647 := by decide
  obtain ⟨L, g1, g2, g3, g4, g5, g6⟩ := h2
  have hnone : s.map (2 ^ 15 - 1) (2 ^ 16 - 1) = none := by
    by_contra hc
    have := ((h6 _ _).mp hc).2
    norm_num at this
  obtain ⟨m1, b, q1, q2, q3, q4⟩ := g1.insert g2 hop.1 hop.2 1
  have hb : b = true := q4.mpr (by rw [mem_keys_iff, g6, hnone]; simp)
  subst hb
  refine ⟨m, m1, _, h1, by rw [h3, hmax]; norm_num, hop, by simp only [Holds, hmax]; norm_num, ?_, ?_, csr_insert g1 g2 hop.1 hop.2 1 q1⟩
  · rw [csr_sizeRow, g1.sizeRow, g4, hmax]
    norm_num at h4
    omega
  · rw [g5, hmax]
    omega

-- More calls than the type counts, but few elements.
example : typedRun ⟨8, true⟩ TypedCsr.new (List.replicate 200 (IntTy.size, (.insertOrAssign 3 5 7 : CsrOp Int))) =
    (fun s => (emb s.1, s.2)) <$> csrRun CsrData.new ((List.replicate 200 (IntTy.size, (.insertOrAssign 3 5 7 : CsrOp Int))).map (·.2)) := by
  refine c228_partial ⟨8, true⟩ _ (fun o ho => ?_) fun k m bs h => ⟨?_, fun t r c hr => ?_⟩
  · rw [List.eq_of_mem_replicate ho]
    refine ⟨by simp [CsrOp.Fits, sizeMax], by unfold Holds; decide +kernel, fun p hp => ?_⟩
    rw [List.eq_of_mem_replicate hp]
    unfold Holds
    decide +kernel
  · have key : ∀ k < 201, (match csrRun CsrData.new (List.replicate k (.insertOrAssign 3 5 7 : CsrOp Int)) with
        | .ok (m, _) => decide (m.cols.length ≤ 127)
        | _ => true) = true := by
      decide +kernel
    have := key (min k 200) (by omega)
    rw [List.take_replicate, List.map_replicate] at h
    rw [h] at this
    have e : IntTy.max ⟨8, true⟩ = 127 := by decide
    have := of_decide_eq_true this
    omega
  · have := List.eq_of_mem_replicate (List.mem_of_getElem? hr)
    simp at this

/-- Eight rows of sixteen elements without the last one. -/
def bytes : CsrData Int := ⟨[0, 16, 32, 48, 64, 80, 96, 112, 127], (List.range 127).map (· % 16), List.replicate 127 1, 16⟩

theorem reached_bytes : Reached bytes :=
  ⟨eightRows.take 127, List.replicate 127 (some true), fun op hop => by
    obtain ⟨k, hk, rfl⟩ := List.mem_map.mp (List.mem_of_mem_take hop)
    have hk := List.mem_range.mp hk
    simp only [CsrOp.Fits, sizeMax]
    omega, by decide +kernel⟩

/-- The hypotheses of `c228_wraps`, for a signed and an unsigned type, and what follows. -/
example : Wraps ⟨8, true⟩ ∧ Wraps ⟨16, false⟩ ∧ Wraps ⟨32, false⟩ ∧ Reached bytes ∧ (bytes.cols.length : Int) = IntTy.max ⟨8, true⟩ ∧
    Holds IntTy.int (.insert 7 15 (1 : Int)) ∧ Holds ⟨8, true⟩ (.insert 7 15 (1 : Int)) ∧
    CsrData.insert bytes 7 15 1 = .ok (⟨[0, 16, 32, 48, 64, 80, 96, 112, 128], (List.range 128).map (· % 16), List.replicate 128 1, 16⟩,
      (7, 127, 127), true) := by
  refine ⟨by unfold Wraps; decide, by unfold Wraps; decide, by unfold Wraps; decide, reached_bytes, by decide +kernel, by unfold Holds; decide +kernel,
    by unfold Holds; decide +kernel, by decide +kernel⟩
example : (do
    let (n, _, b) ← TypedCsr.insert IntTy.int ⟨8, true⟩ (emb bytes) 7 15 1
    (pure (n.off, b) : Out (List Int × Bool))) = .ok ([0, 16, 32, 48, 64, 80, 96, 112, -128], true) := by
  decide +kernel
example : (do
    let (n, _, _) ← TypedCsr.insert IntTy.int ⟨8, true⟩ (emb bytes) 7 15 1
    let (n, _, b) ← TypedCsr.insert IntTy.int ⟨8, true⟩ n 7 15 2
    (pure (n.off, b) : Out (List Int × Bool))) = .ub := by
  decide +kernel

/-- An unsigned type holds twice as many elements, but the columns cannot be made fewer. -/
theorem c228_shrink : (do
    let (n, _, b) ← TypedCsr.insert IntTy.int ⟨8, false⟩ (emb bytes) 7 15 1
    (pure (n.off, b) : Out (List Int × Bool))) = .ok ([0, 16, 32, 48, 64, 80, 96, 112, 128], true) ∧ (do
    let (n, _, _) ← TypedCsr.insert IntTy.int ⟨8, false⟩ (emb bytes) 7 15 1
    let n ← TypedCsr.resize IntTy.int ⟨8, false⟩ n 8 16
    (pure n.off : Out (List Int))) = .ok [0, 16, 32, 48, 64, 80, 96, 112, 128] ∧ (do
    let (n, _, _) ← TypedCsr.insert IntTy.int ⟨8, false⟩ (emb bytes) 7 15 1
    let (n, _, _) ← TypedCsr.insert IntTy.int ⟨8, false⟩ n 7 16 1
    let n ← TypedCsr.resize IntTy.int ⟨8, false⟩ n 8 16
    (pure n.off : Out (List Int))) = .ub := by
  decide +kernel

end Disa.Props
