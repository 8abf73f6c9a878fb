import Mathlib.Tactic.Linarith
import Mathlib.Tactic.Positivity
import Verif.Sparse.IndexTypes
import Verif.Sparse.Hom
import Verif.Props.CsrData
import Verif.Props.SparseCapacity

/-!
# Property C156: index types of `CSR_Data`
-/

namespace Disa.Props

open Disa Spec Sparse IntTy

/-! ### Integer types -/

theorem IntTy.max_lt (t : IntTy) : t.max < 2 ^ t.bits := by
  unfold IntTy.max
  split
  · have : (2 : Int) ^ (t.bits - 1) ≤ 2 ^ t.bits := pow_le_pow_right₀ (by norm_num) (by omega)
    omega
  · omega

theorem IntTy.cast_of_le {t : IntTy} {x : Int} (h0 : 0 ≤ x) (h : x ≤ t.max) : t.cast x = x := by
  have := IntTy.max_lt t
  unfold IntTy.cast
  rw [Int.emod_eq_of_lt h0 (by omega), if_pos h]

theorem IntTy.max_mono {s t : IntTy} (hb : s.bits ≤ t.bits) (h : s.signed = true ∨ t.signed = false ∨ s.bits < t.bits) :
    s.max ≤ t.max := by
  have e1 : (2 : Int) ^ (s.bits - 1) ≤ 2 ^ (t.bits - 1) := pow_le_pow_right₀ (by norm_num) (by omega)
  have e2 : (2 : Int) ^ s.bits ≤ 2 ^ t.bits := pow_le_pow_right₀ (by norm_num) hb
  have e3 : (2 : Int) ^ (s.bits - 1) ≤ 2 ^ t.bits := pow_le_pow_right₀ (by norm_num) (by omega)
  unfold IntTy.max
  split
  · split <;> omega
  · rename_i hs
    split
    · rename_i ht
      have hlt : s.bits < t.bits := by
        rcases h with h | h | h
        · exact absurd h hs
        · rw [ht] at h; cases h
        · exact h
      have : (2 : Int) ^ s.bits ≤ 2 ^ (t.bits - 1) := pow_le_pow_right₀ (by norm_num) (by omega)
      omega
    · omega

theorem IntTy.max_promote (t : IntTy) : t.max ≤ t.promote.max := by
  unfold IntTy.promote
  split
  · exact IntTy.max_mono (by show t.bits ≤ 32; omega) (.inr (.inr (by assumption)))
  · exact le_rfl

theorem IntTy.max_common (s t : IntTy) : s.max ≤ (common s t).max ∧ t.max ≤ (common s t).max := by
  have h1 := IntTy.max_promote s
  have h2 := IntTy.max_promote t
  unfold IntTy.common
  generalize s.promote = s' at *
  generalize t.promote = t' at *
  dsimp only
  split
  · exact ⟨h1.trans (IntTy.max_mono (by omega) (.inr (.inr (by assumption)))), h2⟩
  · split
    · exact ⟨h1, h2.trans (IntTy.max_mono (by omega) (.inr (.inr (by assumption))))⟩
    · split
      · rename_i hs
        exact ⟨h1.trans (IntTy.max_mono (by omega) (.inl hs)), h2⟩
      · rename_i hs
        exact ⟨h1, h2.trans (IntTy.max_mono (by omega) (.inr (.inl (by simpa using hs))))⟩

theorem IntTy.lt_nat {s t : IntTy} {x y : Nat} (hx : (x : Int) ≤ s.max) (hy : (y : Int) ≤ t.max) :
    IntTy.lt s t x y = decide (x < y) := by
  obtain ⟨h1, h2⟩ := IntTy.max_common s t
  unfold IntTy.lt
  rw [IntTy.cast_of_le (by omega) (hx.trans h1), IntTy.cast_of_le (by omega) (hy.trans h2)]
  exact decide_eq_decide.mpr Int.ofNat_lt

theorem IntTy.eq_nat {s t : IntTy} {x y : Nat} (hx : (x : Int) ≤ s.max) (hy : (y : Int) ≤ t.max) :
    IntTy.eq s t x y = (x == y) := by
  obtain ⟨h1, h2⟩ := IntTy.max_common s t
  unfold IntTy.eq
  rw [IntTy.cast_of_le (by omega) (hx.trans h1), IntTy.cast_of_le (by omega) (hy.trans h2)]
  rw [Bool.eq_iff_iff]
  simp [Int.ofNat_inj]

theorem IntTy.cast_nat {t : IntTy} {x : Nat} (h : (x : Int) ≤ t.max) : t.cast x = x := IntTy.cast_of_le (by omega) h

theorem IntTy.min_le (t : IntTy) : t.min ≤ 0 := by
  unfold IntTy.min
  split
  · have : (0 : Int) < 2 ^ (t.bits - 1) := by positivity
    omega
  · exact le_rfl

theorem IntTy.arith_nat {t : IntTy} {x : Nat} (h : (x : Int) ≤ t.max) : t.arith x = .ok x := by
  have := IntTy.min_le t
  unfold IntTy.arith
  split
  · rw [if_pos (by omega)]
  · rw [IntTy.cast_nat h]

theorem IntTy.max_signed (t : IntTy) : t.toSigned.max ≤ t.max := IntTy.max_mono le_rfl (.inl rfl)

theorem IntTy.incr_nat {t : IntTy} {x : Nat} (h : (x : Int) + 1 ≤ t.max) : t.incr x = .ok ((x + 1 : Nat) : Int) := by
  have := IntTy.max_promote t
  unfold IntTy.incr
  rw [show (x : Int) + 1 = ((x + 1 : Nat) : Int) by omega, IntTy.arith_nat (by omega), Out.ok_bind, IntTy.cast_nat (by omega)]
  rfl

/-! ### The same data with other types -/

variable {α : Type}

/-- The data with integers for the indices. -/
def emb (m : CsrData α) : TypedCsr α := ⟨m.off.map Nat.cast, m.cols.map Nat.cast, m.vals, m.colSize⟩

theorem rdInt_nat {β γ : Type} (f : β → γ) (v : List β) (i : Nat) : TypedCsr.rdInt (v.map f) i = f <$> rd v i := by
  unfold TypedCsr.rdInt
  rw [if_pos (by omega), Int.toNat_natCast, rd_map]

theorem vecResize_nat {β γ : Type} (f : β → γ) (v : List β) (n : Nat) (x : β) :
    TypedCsr.vecResize (v.map f) n (f x) = .ok ((resizeList v n x).map f) := by
  unfold TypedCsr.vecResize
  rw [if_pos (by omega), Int.toNat_natCast, resizeList_map]

theorem sliceInt_nat {β γ : Type} (f : β → γ) (v : List β) (b e : Nat) :
    TypedCsr.sliceInt (v.map f) b e = List.map f <$> slice v b e := by
  unfold TypedCsr.sliceInt slice
  rw [if_pos (by omega), Int.toNat_natCast, Int.toNat_natCast, List.length_map]
  split
  · simp [List.map_take, List.map_drop]
  · rfl

theorem bound_nat {p : Int → Bool} {q : Nat → Bool} {l : List Nat} (h : ∀ c ∈ l, p c = q c) :
    TypedCsr.bound p (l.map Nat.cast) =
      if (l.drop (l.takeWhile q).length).all (!q ·) then .ok (l.takeWhile q).length else .ub := by
  have e : ((l.map Nat.cast).takeWhile p).length = (l.takeWhile q).length := by
    induction l with
    | nil => rfl
    | cons x l ih =>
      simp only [List.map_cons, List.takeWhile_cons, h x (by simp)]
      split
      · simp only [List.length_cons, ih fun c hc => h c (by simp [hc])]
      · rfl
  unfold TypedCsr.bound
  rw [e, ← List.map_drop, List.all_map]
  have : (l.drop (l.takeWhile q).length).all ((fun x => !p x) ∘ Nat.cast) = (l.drop (l.takeWhile q).length).all (!q ·) := by
    rw [Bool.eq_iff_iff, List.all_eq_true, List.all_eq_true]
    constructor <;> intro g c hc
    · have := g c hc
      simp only [Function.comp, h c (List.mem_of_mem_drop hc)] at this
      exact this
    · have := g c hc
      simp only [Function.comp, h c (List.mem_of_mem_drop hc)]
      exact this
  rw [this]

theorem bound_lower {A T : IntTy} {l : List Nat} {j : Nat} (hl : ∀ c ∈ l, (c : Int) ≤ T.max) (hj : (j : Int) ≤ A.max) :
    TypedCsr.bound (fun c => IntTy.lt T A c j) (l.map Nat.cast) = Disa.lowerBound l j := by
  rw [bound_nat (q := fun c => decide (c < j)) fun c hc => IntTy.lt_nat (hl c hc) hj]
  unfold Disa.lowerBound
  simp only [← decide_not, Nat.not_lt]

theorem bound_upper {A T : IntTy} {l : List Nat} {x : Nat} (hl : ∀ c ∈ l, (c : Int) ≤ T.max) (hx : (x : Int) ≤ A.max) :
    TypedCsr.bound (fun c => !IntTy.lt A T x c) (l.map Nat.cast) = Disa.upperBound l x := by
  rw [bound_nat (q := fun c => decide (c ≤ x)) fun c hc => by
    rw [IntTy.lt_nat hx (hl c hc), ← decide_not]
    exact decide_eq_decide.mpr Nat.not_lt]
  unfold Disa.upperBound
  simp only [← decide_not, Nat.not_le]

/-- One row of the column loop of `resize`. -/
theorem body_typed {A T : IntTy} {M : Rows α} {c i : Nat} (hi : i < M.length) (hr : (keys M[i]).Pairwise (· < ·))
    {st : CsrData α × Nat} (h : CropAt M i st) (hn : ((M.flatten.length + st.2 : Nat) : Int) ≤ T.toSigned.max)
    (hk : ∀ k ∈ keys M[i], (k : Int) ≤ T.max) (hc : 0 < c) (hcA : (c : Int) ≤ A.max) :
    ∃ st', CsrData.resizeBody c i st = .ok st' ∧
      TypedCsr.resizeBody A T ((c : Int) - 1) i (emb st.1, (st.2 : Int)) = .ok (emb st'.1, (st'.2 : Int)) ∧
      CropAt (M.set i (cropRow c M[i])) (i + 1) st' ∧ ∀ k, i + 1 < k → st'.1.off[k]? = st.1.off[k]? := by
  obtain ⟨st', h1, h2⟩ := crop_step (c := c) hi hr h
  refine ⟨st', h1, ?_, h2, ?_⟩
  all_goals
    have hle := psum_succ M hi
    have hpl := psum_le M (i + 1)
    have hsm := IntTy.max_signed T
    have hpm := IntTy.max_promote T
    have hcl : (cropRow c M[i]).length ≤ M[i].length := List.length_filter_le _ _
    have hslice : slice st.1.cols (psum M i) (psum M (i + 1)) = .ok (keys M[i]) := by
      have hc : st.1.cols = (M.map (List.map (·.1))).flatten := by rw [h.cols, List.map_flatten]
      rw [hc, ← psum_map_map M (·.1), ← psum_map_map M (·.1), slice_row _ (by simpa using hi)]
      simp
    have hub : upperBound (keys M[i]) (usub c 1) = .ok (cropRow c M[i]).length := upperBound_ok hr _
    have e0 := rd_of_some (h.todo (i + 1) (by omega) (by omega))
    have b0 := rd_of_some (h.done i (Nat.le_refl i))
    have hu : usub (psum M (i + 1) + st.2) st.2 = psum M (i + 1) := by
      rw [usub_of_le (by omega)]; omega
    have hvl : st.1.vals.length = M.flatten.length := by rw [h.vals, List.length_map]
    unfold Sparse.resizeBody at h1
    simp only [e0, b0, Out.ok_bind, hu, hslice, hub] at h1
  · unfold TypedCsr.resizeBody
    simp only [emb, rd_map, e0, b0, Out.map_ok, Out.ok_bind]
    have a1 : (((psum M (i + 1) + st.2 : Nat) : Int) - st.2) = ((psum M (i + 1) : Nat) : Int) := by omega
    simp only [a1, IntTy.arith_nat (t := T.promote) (x := psum M (i + 1)) (by omega), Out.ok_bind,
      IntTy.cast_nat (t := T.toSigned) (x := psum M (i + 1)) (by omega), IntTy.cast_nat (t := T.toSigned) (x := psum M i) (by omega),
      IntTy.cast_nat (t := T) (x := psum M (i + 1)) (by omega), sliceInt_nat, hslice, Out.map_ok]
    have a2 : (c : Int) - 1 = ((c - 1 : Nat) : Int) := by omega
    have hcm := (IntTy.max_common A IntTy.int).1
    rw [a2, bound_upper hk (by omega), ← usub_of_le (show 1 ≤ c by omega), hub]
    simp only [Out.ok_bind]
    by_cases hz : psum M i + (cropRow c M[i]).length = psum M (i + 1)
    · rw [if_pos (by simpa using hz), wr_ok (by rw [h.len]; omega)] at h1
      rw [if_pos (by rw [beq_iff_eq]; omega), wr_ok (by rw [List.length_map, h.len]; omega)]
      simp only [Out.ok_bind, Out.pure_eq, Out.ok.injEq] at h1 ⊢
      subst h1
      simp [List.map_set]
    · rw [if_neg (by simpa using hz), if_pos (by omega), wr_ok (by rw [h.len]; omega)] at h1
      rw [if_neg (by rw [beq_iff_eq]; omega), if_pos (by rw [hvl]; omega)]
      have a3 : (st.2 : Int) + (((psum M (i + 1) : Nat) : Int) - ((psum M i : Nat) + ((cropRow c M[i]).length : Nat))) =
          ((st.2 + (psum M (i + 1) - (psum M i + (cropRow c M[i]).length)) : Nat) : Int) := by omega
      have hu2 : usub (psum M (i + 1) + st.2) (st.2 + (psum M (i + 1) - (psum M i + (cropRow c M[i]).length))) =
          psum M i + (cropRow c M[i]).length := by
        rw [usub_of_le (by omega)]; omega
      have a4 : ((psum M (i + 1) + st.2 : Nat) : Int) - ((st.2 + (psum M (i + 1) - (psum M i + (cropRow c M[i]).length)) : Nat) : Int) =
          ((psum M i + (cropRow c M[i]).length : Nat) : Int) := by omega
      rw [a3, IntTy.cast_nat (by omega), a4, IntTy.arith_nat (by omega)]
      simp only [Out.ok_bind]
      rw [wr_ok (by rw [List.length_map, h.len]; omega), IntTy.cast_nat (by omega)]
      simp only [Out.ok_bind, Out.pure_eq, Out.ok.injEq, hu2] at h1 ⊢
      subst h1
      have a5 : (((psum M i : Nat) : Int) + ((cropRow c M[i]).length : Nat)).toNat = psum M i + (cropRow c M[i]).length := by omega
      rw [a5, Int.toNat_natCast, cut_map]
      simp [List.map_set]
  · intro k hk'
    by_cases hz : psum M i + (cropRow c M[i]).length = psum M (i + 1)
    · rw [if_pos (by simpa using hz), wr_ok (by rw [h.len]; omega)] at h1
      simp only [Out.ok_bind, Out.pure_eq, Out.ok.injEq] at h1
      subst h1
      exact List.getElem?_set_ne (by omega)
    · rw [if_neg (by simpa using hz), if_pos (by omega), wr_ok (by rw [h.len]; omega)] at h1
      simp only [Out.ok_bind, Out.pure_eq, Out.ok.injEq] at h1
      subst h1
      exact List.getElem?_set_ne (by omega)

/-- The column loop of `resize`. -/
theorem loop_typed {A T : IntTy} {m : CsrData α} {L : Rows α} {c cs : Nat} (h : m.Rep L) (hs : Sorted L) (hb : Bounded cs L)
    (hn : (L.flatten.length : Int) ≤ T.toSigned.max) (hcs : (cs : Int) ≤ T.max) (hc : 0 < c) (hcA : (c : Int) ≤ A.max) :
    loop L.length (TypedCsr.resizeBody A T ((c : Int) - 1)) (emb m, 0) =
      (fun s => (emb s.1, (s.2 : Int))) <$> loop L.length (CsrData.resizeBody c) (m, 0) := by
  by_cases hL : L = []
  · subst hL; rfl
  have hm : mid (cropRow c) L 0 = L := by simp [mid]
  have key : ∀ n, n ≤ L.length → ∃ st, loop n (CsrData.resizeBody c) (m, 0) = .ok st ∧
      loop n (TypedCsr.resizeBody A T ((c : Int) - 1)) (emb m, 0) = .ok (emb st.1, (st.2 : Int)) ∧
      CropAt (mid (cropRow c) L n) n st ∧ ∀ k, n < k → st.1.off[k]? = m.off[k]? := by
    intro n
    induction n with
    | zero => exact fun _ => ⟨(m, 0), rfl, rfl, by rw [hm]; exact CropAt.init h hL, fun _ _ => rfl⟩
    | succ n ih =>
      intro hnl
      obtain ⟨st, h1, h2, h3, h4⟩ := ih (by omega)
      have hr := hs n
      have hi : n < L.length := hnl
      rw [row_of_lt hi] at hr
      have hMi := mid_getElem (cropRow c) L hi
      have hlast := h4 L.length hi
      rw [h3.todo L.length hi (by rw [mid_length]), h.off_eq hL, offs_getElem? L le_rfl, psum_length, Option.some.injEq,
        psum_of_ge _ (by rw [mid_length])] at hlast
      obtain ⟨st', k1, k2, k3, k4⟩ := body_typed (A := A) (T := T) (c := c) (by rw [mid_length]; exact hi) (by rw [hMi]; exact hr) h3
        (by rw [hlast]; exact hn) (by
          rw [hMi]
          intro k hk
          obtain ⟨e, he, rfl⟩ := List.mem_map.mp hk
          have := hb n e (by rw [row_of_lt hi]; exact he)
          omega) hc hcA
      rw [hMi, ← mid_succ _ L hi] at k3
      refine ⟨st', ?_, ?_, k3, ?_⟩
      · show (loop n _ _ >>= _) = _
        rw [h1]
        exact k1
      · show (loop n _ _ >>= _) = _
        rw [h2]
        exact k2
      · intro k hk
        rw [k4 k hk, h4 k (by omega)]
  obtain ⟨st, h1, h2, -⟩ := key L.length le_rfl
  rw [h1, h2]
  rfl

theorem sizeRow_typed {T : IntTy} {m : CsrData α} {L : Rows α} (h : m.Rep L) (hT : (L.length : Int) ≤ T.max) :
    TypedCsr.sizeRow T (emb m) = (L.length : Int) := by
  have := h.sizeRow
  unfold Sparse.sizeRow at this
  unfold TypedCsr.sizeRow
  simp only [emb, List.isEmpty_map, List.length_map]
  cases ho : m.off.isEmpty
  · rw [ho] at this
    simp only [Bool.false_eq_true, if_false] at this
    have hpos : 0 < m.off.length := by
      rw [List.length_pos_iff]
      intro hc
      simp [hc] at ho
    rw [show ((m.off.length : Int) - 1) = (L.length : Int) by omega]
    simp [IntTy.cast_nat hT]
  · rw [ho] at this
    simp at this
    simp [← this]

variable [Zero α]

/-- `resize` is the same for all index types that hold what it handles. -/
theorem resize_typed {A T : IntTy} {m : CsrData α} {L : Rows α} {r c : Nat} (h : m.Rep L) (hs : Sorted L) (hb : Bounded m.colSize L)
    (hr : r < sizeMax) (hrA : (r : Int) + 1 ≤ A.max) (hrT : (r : Int) ≤ T.max) (hL : (L.length : Int) ≤ T.max)
    (hcA : (c : Int) ≤ A.max) (hcT : (c : Int) ≤ T.max) (hm : (m.colSize : Int) ≤ T.max)
    (hn : c < m.colSize → 0 < c ∧ (L.flatten.length : Int) ≤ T.toSigned.max) :
    TypedCsr.resize A T (emb m) r c = emb <$> CsrData.resize m r c := by
  have hcm := (IntTy.max_common A IntTy.int).1
  have hw : wrap (r + 1) = r + 1 := by
    unfold wrap; unfold sizeMax at hr; exact Nat.mod_eq_of_lt (by omega)
  obtain ⟨m1, h1, h2, h3⟩ := h.resize_rows hr
  have hs1 : Sorted (pad (L.take r) r) := by
    intro i
    rw [row_pad_take]
    split
    · exact hs i
    · simp [keys]
  have hb1 : Bounded m.colSize (pad (L.take r) r) := by
    intro i
    rw [row_pad_take]
    split
    · exact hb i
    · simp
  have hl1 : (pad (L.take r) r).length = r := by simp [pad_length]
  have hf1 : (pad (L.take r) r).flatten.length ≤ L.flatten.length := by
    rw [← psum_length, hl1, psum_pad, psum_take L le_rfl]
    exact psum_le L r
  -- the rows
  have hrow : (do
      let m ← (if IntTy.lt A T (r : Int) (TypedCsr.sizeRow T (emb m)) then do
        let o ← TypedCsr.rdInt (emb m).off (r : Int)
        let cols ← TypedCsr.vecResize (emb m).cols o 0
        let vals ← TypedCsr.vecResize (emb m).vals o 0
        pure { emb m with cols := cols, vals := vals }
        else pure (emb m))
      let n ← (common A int).arith ((r : Int) + 1)
      let off ← TypedCsr.vecResize m.off n (if m.off.isEmpty then 0 else m.off.getLastD 0)
      (pure { m with off := off } : Out (TypedCsr α))) = .ok (emb m1) := by
    rw [sizeRow_typed h hL, IntTy.lt_nat (by omega) hL, show (r : Int) + 1 = ((r + 1 : Nat) : Int) by omega,
      IntTy.arith_nat (by omega)]
    rw [h.sizeRow, hw] at h1
    have hlast : ∀ off : List Nat, (if (off.map (Nat.cast : Nat → Int)).isEmpty then 0 else (off.map (Nat.cast : Nat → Int)).getLastD 0) =
        ((if off.isEmpty then 0 else off.getLastD 0 : Nat) : Int) := by
      intro off
      rcases List.eq_nil_or_concat off with rfl | ⟨l, x, rfl⟩
      · rfl
      · simp
    by_cases hrl : r < L.length
    · simp only [hrl, decide_true, if_true, h.off_rd hrl (Nat.le_of_lt hrl), Out.ok_bind, Out.pure_eq, Out.ok.injEq] at h1 ⊢
      subst h1
      simp only [emb, rdInt_nat, h.off_rd hrl (Nat.le_of_lt hrl), Out.map_ok, Out.ok_bind]
      have e1 := vecResize_nat (Nat.cast : Nat → Int) m.cols (psum L r) 0
      have e2 := vecResize_nat (id : α → α) m.vals (psum L r) 0
      rw [List.map_id, List.map_id] at e2
      rw [show ((0 : Nat) : Int) = 0 from rfl] at e1
      rw [show id (0 : α) = 0 from rfl] at e2
      simp only [e1, e2, Out.ok_bind]
      rw [hlast, vecResize_nat]
      rfl
    · simp only [hrl, decide_false, Bool.false_eq_true, if_false, Out.ok_bind, Out.pure_eq, Out.ok.injEq] at h1 ⊢
      subst h1
      have e3 := vecResize_nat (Nat.cast : Nat → Int) m.off (r + 1) (if m.off.isEmpty then 0 else m.off.getLastD 0)
      rw [← hlast] at e3
      show (TypedCsr.vecResize (m.off.map Nat.cast) ((r + 1 : Nat) : Int) _ >>= _) = _
      erw [e3]
      rfl
  obtain ⟨f, hf⟩ : ∃ f : TypedCsr α → Out (TypedCsr α), f = (fun m1 => do
      let m ← (if IntTy.lt A T (c : Int) m1.columns then do
        let x ← (common A int).arith ((c : Int) - 1)
        let (m, _) ← loop (TypedCsr.sizeRow T m1).toNat (TypedCsr.resizeBody A T x) (m1, 0)
        pure m
        else pure m1)
      pure { m with columns := T.cast (c : Int) }) := ⟨_, rfl⟩
  have ht : TypedCsr.resize A T (emb m) r c = f (emb m1) := by
    have hd : ∀ n : Nat, decide ((0 : Int) ≤ n) = true := by intro n; simp
    rw [← Out.ok_bind (emb m1) f, ← hrow, hf]
    unfold TypedCsr.resize
    rw [hd, hd, assert_true, Out.ok_bind, Out.ok_bind]
    simp only [bind_assoc, pure_bind]
  obtain ⟨g, hg⟩ : ∃ g : CsrData α → Out (CsrData α), g = (fun m1 => do
      let m ← (if c < m1.colSize then do
        let (m, _) ← loop (CsrData.sizeRow m1) (CsrData.resizeBody c) (m1, 0)
        pure m
        else pure m1)
      pure { m with colSize := c }) := ⟨_, rfl⟩
  have hc' : CsrData.resize m r c = g m1 := by
    rw [← Out.ok_bind m1 g, ← h1, hg]
    unfold CsrData.resize
    simp only [csr_sizeRow, bind_assoc, pure_bind]
    rfl
  rw [ht, hc', hf, hg]
  dsimp only
  rw [csr_sizeRow, h2.sizeRow, sizeRow_typed h2 (by rw [hl1]; exact hrT), Int.toNat_natCast]
  rw [show (emb m1).columns = (m1.colSize : Int) from rfl, h3, IntTy.lt_nat hcA hm, IntTy.cast_nat hcT]
  by_cases hcl : c < m.colSize
  · obtain ⟨n1, n2⟩ := hn hcl
    have a2 : (c : Int) - 1 = ((c - 1 : Nat) : Int) := by omega
    simp only [hcl, decide_true, if_true]
    rw [a2, IntTy.arith_nat (by omega), Out.ok_bind, ← a2, loop_typed h2 hs1 hb1 (by omega) hm n1 hcA]
    cases loop (pad (L.take r) r).length (CsrData.resizeBody c) (m1, 0) <;> rfl
  · simp only [hcl, decide_false, Bool.false_eq_true, if_false]
    rfl

omit [Zero α] in
/-- `lower_bound` in a row of the matrix. -/
theorem lowerBound_typed {A T : IntTy} {m : CsrData α} {L : Rows α} {i j : Nat} (h : m.Rep L) (hb : Bounded m.colSize L)
    (hi : i < L.length) (hiA : (i : Int) + 1 ≤ A.max) (hL : (L.length : Int) ≤ T.max) (hj : (j : Int) ≤ A.max)
    (hm : (m.colSize : Int) ≤ T.max) : TypedCsr.lowerBound A T (emb m) i j = CsrData.lowerBound m i j := by
  have hcm := (IntTy.max_common A IntTy.int).1
  have hd : ∀ n : Nat, decide ((0 : Int) ≤ n) = true := by intro n; simp
  have hk : ∀ k ∈ keys L[i], (k : Int) ≤ T.max := by
    intro k hk
    obtain ⟨e, he, rfl⟩ := List.mem_map.mp hk
    have := hb i e (by rw [row_of_lt hi]; exact he)
    omega
  have hsl := h.slice_keys hi
  have v1 : (emb m).off = m.off.map Nat.cast := by unfold emb; rfl
  have v2 : (emb m).cols = m.cols.map Nat.cast := by unfold emb; rfl
  have v3 : (emb m).vals = m.vals := by unfold emb; rfl
  unfold TypedCsr.lowerBound CsrData.lowerBound
  rw [hd, hd, assert_true, Out.ok_bind, Out.ok_bind, sizeRow_typed h hL, IntTy.lt_nat (by omega) hL, csr_sizeRow, h.sizeRow,
    show (i : Int) + 1 = ((i + 1 : Nat) : Int) by omega, IntTy.arith_nat (by omega)]
  simp only [hi, decide_true, if_true, v1, v2, v3, rdInt_nat, h.off_rd hi (Nat.le_of_lt hi), h.off_rd hi (show i + 1 ≤ L.length from hi),
    Out.map_ok, Out.ok_bind, sliceInt_nat, hsl, bound_lower hk hj]
  cases Disa.lowerBound (keys L[i]) j with
  | ok k =>
    simp only [Out.ok_bind]
    by_cases hv : psum L i + k ≤ m.vals.length
    · rw [if_pos (by omega), if_pos hv]
      by_cases he : psum L i + k = psum L (i + 1)
      · rw [if_neg (by simp; omega), if_neg (by simp; omega)]
        simp only [Int.toNat_natCast]
        congr 2
      · rw [if_pos (by simp; omega), if_pos (by simp; omega)]
        congr 2
    · rw [if_neg (by omega), if_neg hv]
  | _ => rfl

/-- `insert` up to the step that counts the new element. -/
theorem insert_form {A T : IntTy} {m : CsrData α} {L : Rows α} {i j : Nat} (h : m.Rep L) (hs : Sorted L) (hb : Bounded m.colSize L)
    (hi : i + 1 < sizeMax) (hj : j < sizeMax) (hLA : (L.length : Int) + 1 ≤ A.max) (hLT : (L.length : Int) ≤ T.max)
    (hiA : (i : Int) + 2 ≤ A.max) (hiT : (i : Int) + 1 ≤ T.max) (hmA : (m.colSize : Int) ≤ A.max) (hmT : (m.colSize : Int) ≤ T.max)
    (hjA : (j : Int) + 1 ≤ A.max) (hjT : (j : Int) + 1 ≤ T.max) (v : α) :
    ∃ (m2 : CsrData α) (p : Nat), m2.Rep (pad L (i + 1)) ∧
      (j ∈ keys (row L i) → TypedCsr.insert A T (emb m) i j v = .ok (emb m2, (i, p, p), false) ∧
        CsrData.insert m i j v = .ok (m2, (i, p, p), false)) ∧
      (j ∉ keys (row L i) →
        TypedCsr.insert A T (emb m) i j v = (do
          let tail ← mapOut T.incr ((emb m2).off.drop (i + 1))
          .ok (⟨(emb m2).off.take (i + 1) ++ tail, insAt (emb m2).cols p (j : Int), insAt m2.vals p v, (m2.colSize : Int)⟩, (i, p, p), true)) ∧
        CsrData.insert m i j v = .ok (⟨m2.off.take (i + 1) ++ (m2.off.drop (i + 1)).map (· + 1), insAt m2.cols p j, insAt m2.vals p v,
          m2.colSize⟩, (i, p, p), true)) := by
  have hcm := (IntTy.max_common A IntTy.int).1
  have hd : ∀ n : Nat, decide ((0 : Int) ≤ n) = true := by intro n; simp
  have hwi : wrap (i + 1) = i + 1 := by unfold wrap; unfold sizeMax at hi; exact Nat.mod_eq_of_lt (by omega)
  have hwj : wrap (j + 1) = j + 1 := by unfold wrap; unfold sizeMax at hj; exact Nat.mod_eq_of_lt (by omega)
  obtain ⟨m1, m2, e1, e2, r1, r2, c2⟩ := h.grow hs hi hj
  have hpl : (pad L (i + 1)).length = max L.length (i + 1) := pad_length L (i + 1)
  have hs1 := sorted_pad hs (i + 1)
  have hb1 : ∀ c, m.colSize ≤ c → Bounded c (pad L (i + 1)) := by
    intro c hc k
    rw [row_pad]
    exact bounded_mono hb hc k
  have c1 : m1.colSize = m.colSize := by
    split at e1
    · obtain ⟨m3, q1, q2, -⟩ := h.resize hs m.colSize (r := wrap (i + 1)) (by rw [hwi]; omega)
      rw [q1, Out.ok.injEq] at e1
      rw [← e1, q2]
    · rw [Out.pure_eq, Out.ok.injEq] at e1
      rw [← e1]
  have t1 : (if !IntTy.lt A T (i : Int) (TypedCsr.sizeRow T (emb m)) then do
      let n ← (common A int).arith ((i : Int) + 1)
      TypedCsr.resize A T (emb m) n (A.cast (emb m).columns)
      else pure (emb m)) = .ok (emb m1) := by
    rw [sizeRow_typed h hLT, IntTy.lt_nat (by omega) hLT, show (i : Int) + 1 = ((i + 1 : Nat) : Int) by omega,
      IntTy.arith_nat (by omega), show (emb m).columns = (m.colSize : Int) from rfl, IntTy.cast_nat hmA]
    rw [h.sizeRow, hwi] at e1
    by_cases hil : i < L.length
    · rw [if_neg (by omega), Out.pure_eq, Out.ok.injEq] at e1
      subst e1
      simp [hil]
    · rw [if_pos (by omega)] at e1
      simp only [hil, decide_false, Bool.not_false, if_true, Out.ok_bind]
      rw [resize_typed h hs hb (by omega) (by omega) (by omega) hLT hmA hmT hmT (by omega), csr_resize, e1]
      rfl
  have t2 : (if !IntTy.lt A T (j : Int) (emb m1).columns then do
      let n ← (common A int).arith ((j : Int) + 1)
      TypedCsr.resize A T (emb m1) (A.cast (TypedCsr.sizeRow T (emb m1))) n
      else pure (emb m1)) = .ok (emb m2) := by
    have hl : ((pad L (i + 1)).length : Int) ≤ T.max := by rw [hpl]; omega
    rw [sizeRow_typed r1 hl, IntTy.cast_nat (by rw [hpl]; omega), show (emb m1).columns = (m1.colSize : Int) from rfl, c1,
      IntTy.lt_nat (by omega) hmT, show (j : Int) + 1 = ((j + 1 : Nat) : Int) by omega, IntTy.arith_nat (by omega)]
    rw [c1, r1.sizeRow, hwj] at e2
    by_cases hjl : j < m.colSize
    · rw [if_neg (by omega), Out.pure_eq, Out.ok.injEq] at e2
      subst e2
      simp [hjl]
    · rw [if_pos (by omega)] at e2
      simp only [hjl, decide_false, Bool.not_false, if_true, Out.ok_bind]
      rw [resize_typed r1 hs1 (by rw [c1]; exact hb1 _ le_rfl) r1.small (by rw [hpl]; omega) hl hl (by omega) (by omega)
        (by rw [c1]; exact hmT) (by rw [c1]; omega), csr_resize, e2]
      rfl
  refine ⟨m2, psum (pad L (i + 1)) i + pos j ((pad L (i + 1))[i]'(by rw [hpl]; omega)), r2, ?_⟩
  unfold TypedCsr.insert CsrData.insert
  rw [hd, hd, assert_true, Out.ok_bind, Out.ok_bind, t1, Out.ok_bind, t2, Out.ok_bind]
  simp only [csr_sizeRow, CsrData.sizeColumn, csr_resize]
  rw [e1, Out.ok_bind, e2, Out.ok_bind]
  have hil : i < (pad L (i + 1)).length := by rw [hpl]; omega
  have hrow : (pad L (i + 1))[i] = row L i := by rw [← row_of_lt hil, row_pad]
  rw [lowerBound_typed r2 (hb1 _ (by omega)) hil (by omega) (by rw [hpl]; omega) (by omega) (by rw [c2]; omega)]
  simp only [csr_lowerBound r2 hs1 hil, Out.ok_bind, Int.toNat_natCast]
  have hfl : (pad L (i + 1)).flatten.length = L.flatten.length := by
    unfold pad; simp
  have hlen2 : m2.off.length = (pad L (i + 1)).length + 1 := by
    rw [r2.off_eq (by intro hc; rw [hc] at hil; simp at hil)]; simp [Disa.offs]
  have v1 : (emb m2).off = m2.off.map Nat.cast := by unfold emb; rfl
  have v2 : (emb m2).cols = m2.cols.map Nat.cast := by unfold emb; rfl
  have hol : i < (emb m2).off.length := by rw [v1, List.length_map]; omega
  have hr := hs1 i
  rw [row_of_lt hil] at hr
  by_cases hpl : pos j (pad L (i + 1))[i] = (pad L (i + 1))[i].length
  · have hj : j ∉ keys (row L i) := by
      rcases pos_cases hr j with ⟨h1, _⟩ | ⟨_, h1, h2⟩
      · rwa [hrow] at h1
      · omega
    refine ⟨fun q => absurd q hj, fun _ => ?_⟩
    rw [if_pos hpl]
    have hne : (i + 1 == i) = false := by simp
    simp only [hne, Bool.false_eq_true, if_false, Out.pure_eq, Out.ok_bind, and_true]
    rw [if_pos hol, IntTy.cast_nat (by omega)]
    rfl
  · have hple := pos_le j (pad L (i + 1))[i]
    have hc := r2.colAt (a := i) hil (k := pos j (pad L (i + 1))[i]) (by omega)
    unfold Sparse.colAt at hc
    rw [if_neg hpl]
    simp only [beq_self_eq_true, if_true, v2, rd_map, hc, Out.ok_bind, Out.pure_eq, Out.map_ok]
    have hkb : (((pad L (i + 1))[i][pos j (pad L (i + 1))[i]].1 : Nat) : Int) ≤ T.max := by
      have := hb1 m.colSize le_rfl i (pad L (i + 1))[i][pos j (pad L (i + 1))[i]] (by rw [row_of_lt hil]; exact List.getElem_mem _)
      omega
    rw [IntTy.eq_nat hkb (by omega)]
    rcases pos_cases hr j with ⟨h1, h2⟩ | ⟨h1, h3, h2⟩
    · rw [hrow] at h1
      refine ⟨fun q => absurd q h1, fun _ => ?_⟩
      have hbf : ((pad L (i + 1))[i][pos j (pad L (i + 1))[i]].1 == j) = false := by
        rcases h2 with h2 | ⟨_, h2⟩
        · exact absurd h2 hpl
        · simpa using h2
      simp only [hbf, Bool.false_eq_true, if_false, and_true]
      rw [if_pos hol, IntTy.cast_nat (by omega)]
      rfl
    · rw [hrow] at h1
      refine ⟨fun _ => ?_, fun q => absurd h1 q⟩
      rw [if_pos (by simpa using h2), if_pos (by simpa using h2)]
      exact ⟨rfl, rfl⟩

/-- `insert` is the same for all index types that hold what it handles. -/
theorem insert_typed {A T : IntTy} {m : CsrData α} {L : Rows α} {i j : Nat} (h : m.Rep L) (hs : Sorted L) (hb : Bounded m.colSize L)
    (hi : i + 1 < sizeMax) (hj : j < sizeMax) (hLA : (L.length : Int) + 1 ≤ A.max) (hLT : (L.length : Int) ≤ T.max)
    (hiA : (i : Int) + 2 ≤ A.max) (hiT : (i : Int) + 1 ≤ T.max) (hmA : (m.colSize : Int) ≤ A.max) (hmT : (m.colSize : Int) ≤ T.max)
    (hjA : (j : Int) + 1 ≤ A.max) (hjT : (j : Int) + 1 ≤ T.max)
    (hn : j ∉ keys (row L i) → (L.flatten.length : Int) + 1 ≤ T.max) (v : α) :
    TypedCsr.insert A T (emb m) i j v = (fun s => (emb s.1, s.2)) <$> CsrData.insert m i j v := by
  obtain ⟨m2, p, r2, e1, e2⟩ := insert_form h hs hb hi hj hLA hLT hiA hiT hmA hmT hjA hjT v
  by_cases hjk : j ∈ keys (row L i)
  · rw [(e1 hjk).1, (e1 hjk).2]
    rfl
  · rw [(e2 hjk).1, (e2 hjk).2]
    have := hn hjk
    have hil : i < (pad L (i + 1)).length := by rw [pad_length]; omega
    have hfl : (pad L (i + 1)).flatten.length = L.flatten.length := by
      unfold pad; simp
    have v1 : (emb m2).off = m2.off.map Nat.cast := by unfold emb; rfl
    have bump : mapOut T.incr ((emb m2).off.drop (i + 1)) = .ok (((m2.off.drop (i + 1)).map (· + 1)).map Nat.cast) := by
      rw [v1, ← List.map_drop]
      rw [mapOut_ok (g := fun x : Int => x + 1)]
      · simp only [List.map_map, Out.ok.injEq]
        apply List.map_congr_left
        intro x _
        simp
      · intro x hx
        obtain ⟨y, hy, rfl⟩ := List.mem_map.mp hx
        have hy := List.mem_of_mem_drop hy
        rw [r2.off_eq (by intro hc; rw [hc] at hil; simp at hil)] at hy
        obtain ⟨k, -, rfl⟩ := List.mem_map.mp hy
        have := psum_le (pad L (i + 1)) k
        rw [IntTy.incr_nat (by omega)]
        simp
    rw [bump]
    simp [emb, insAt_map, List.map_take]

/-- `insert_or_assign` is the same for all index types that hold what it handles. -/
theorem insertOrAssign_typed {A T : IntTy} {m : CsrData α} {L : Rows α} {i j : Nat} (h : m.Rep L) (hs : Sorted L)
    (hb : Bounded m.colSize L) (hi : i + 1 < sizeMax) (hj : j < sizeMax) (hLA : (L.length : Int) + 1 ≤ A.max)
    (hLT : (L.length : Int) ≤ T.max) (hiA : (i : Int) + 2 ≤ A.max) (hiT : (i : Int) + 1 ≤ T.max) (hmA : (m.colSize : Int) ≤ A.max)
    (hmT : (m.colSize : Int) ≤ T.max) (hjA : (j : Int) + 1 ≤ A.max) (hjT : (j : Int) + 1 ≤ T.max)
    (hn : j ∉ keys (row L i) → (L.flatten.length : Int) + 1 ≤ T.max) (v : α) :
    TypedCsr.insertOrAssign A T (emb m) i j v = (fun s => (emb s.1, s.2)) <$> CsrData.insertOrAssign m i j v := by
  unfold TypedCsr.insertOrAssign CsrData.insertOrAssign
  rw [insert_typed h hs hb hi hj hLA hLT hiA hiT hmA hmT hjA hjT hn]
  cases CsrData.insert m i j v with
  | ok s =>
    obtain ⟨m', it, b⟩ := s
    simp only [Out.map_ok, Out.ok_bind]
    cases b
    · simp only [Bool.not_false, if_true, show (emb m').vals = m'.vals from rfl]
      cases wr m'.vals it.2.2 v <;> rfl
    · rfl
  | _ => rfl

/-- One call, in a state and with arguments that the types hold. -/
theorem step_typed {A T : IntTy} {m : CsrData α} {L : Rows α} (h : m.Rep L) (hs : Sorted L) (hb : Bounded m.colSize L)
    (op : CsrOp α) (hop : op.Fits) (hA : Holds A op) (hT : Holds T op) (hLA : (L.length : Int) + 1 ≤ A.max)
    (hLT : (L.length : Int) ≤ T.max) (hmA : (m.colSize : Int) ≤ A.max) (hmT : (m.colSize : Int) ≤ T.max)
    (hn : (L.flatten.length : Int) + 1 ≤ T.toSigned.max) :
    typedStep T (emb m) A op = (fun s => (emb s.1, s.2)) <$> csrStep m op := by
  have hsg := IntTy.max_signed T
  cases op with
  | insert i j v =>
    unfold typedStep csrStep
    simp only
    rw [insert_typed h hs hb hop.1 hop.2 hLA hLT hA.1 (by have := hT.1; omega) hmA hmT hA.2 hT.2 (fun _ => by omega)]
    cases CsrData.insert m i j v <;> rfl
  | insertOrAssign i j v =>
    unfold typedStep csrStep
    simp only
    rw [insertOrAssign_typed h hs hb hop.1 hop.2 hLA hLT hA.1 (by have := hT.1; omega) hmA hmT hA.2 hT.2 (fun _ => by omega)]
    cases CsrData.insertOrAssign m i j v <;> rfl
  | resize r c =>
    unfold typedStep csrStep
    simp only
    rw [resize_typed h hs hb hop.1 hA.1 (by have := hT.1; omega) hLT hA.2 hT.2 hmT (fun _ => ⟨hop.2, by omega⟩)]
    cases CsrData.resize m r c <;> rfl

/-- What one call does to the sizes and to the number of elements. -/
theorem step_sizes {m m' : CsrData α} {L : Rows α} {b : Option Bool} (h : m.Rep L) (hs : Sorted L) (hb : Bounded m.colSize L)
    (op : CsrOp α) (hop : op.Fits) (hm : csrStep m op = .ok (m', b)) :
    ∃ L', m'.Rep L' ∧ Sorted L' ∧ Bounded m'.colSize L' ∧ L'.flatten.length ≤ L.flatten.length + 1 ∧
      ∀ t : IntTy, Holds t op → (L.length : Int) + 1 ≤ t.max → (m.colSize : Int) ≤ t.max →
        (L'.length : Int) + 1 ≤ t.max ∧ (m'.colSize : Int) ≤ t.max := by
  obtain ⟨m1, h1, L1, g1, g2, g3, g4, g5, -⟩ := csrStep_ok (s := ⟨L.length, m.colSize, entry L⟩) ⟨L, h, hs, hb, rfl, rfl, rfl⟩ op hop
  rw [h1, Out.ok.injEq, Prod.mk.injEq] at hm
  obtain ⟨rfl, -⟩ := hm
  refine ⟨L1, g1, g2, g3, ?_, ?_⟩
  · rw [← g1.lengths.1]
    cases op with
    | insert i j v =>
      obtain ⟨m2, b, k1, k2, k3, k4⟩ := h.insert hs hop.1 hop.2 v
      rw [csrStep, csr_insert h hs hop.1 hop.2 v k1] at h1
      simp only [Out.ok_bind, Out.pure_eq, Out.ok.injEq, Prod.mk.injEq] at h1
      rw [← h1.1, k2.lengths.1, insRows_flat]
      split <;> omega
    | insertOrAssign i j v =>
      obtain ⟨m2, it, b, k1, k2, k3, k4⟩ := csr_insertOrAssign h hs hop.1 hop.2 v
      rw [csrStep, k1] at h1
      simp only [Out.ok_bind, Out.pure_eq, Out.ok.injEq, Prod.mk.injEq] at h1
      rw [← h1.1, k2.lengths.1, putRows_flat]
      split <;> omega
    | resize r c =>
      obtain ⟨m2, k1, k2, k3⟩ := h.resize hs c hop.1
      rw [csrStep, csr_resize, k1] at h1
      simp only [Out.ok_bind, Out.pure_eq, Out.ok.injEq, Prod.mk.injEq] at h1
      rw [← h1.1, k3.lengths.1]
      have := resRows_flat m.colSize r c L
      omega
  · intro t ht hl hc
    rw [g4, g5]
    cases op with
    | insert i j v => obtain ⟨a, b⟩ := ht; simp only [sizedStep]; omega
    | insertOrAssign i j v => obtain ⟨a, b⟩ := ht; simp only [sizedStep]; omega
    | resize r c => exact ht

theorem run_typed {T : IntTy} (ops : List (IntTy × CsrOp α)) {m : CsrData α} {L : Rows α} (h : m.Rep L) (hs : Sorted L)
    (hb : Bounded m.colSize L) (hop : ∀ o ∈ ops, o.2.Fits ∧ Holds T o.2 ∧ ∀ p ∈ ops, Holds p.1 o.2)
    (hT : (L.length : Int) + 1 ≤ T.max ∧ (m.colSize : Int) ≤ T.max)
    (hA : ∀ p ∈ ops, (L.length : Int) + 1 ≤ p.1.max ∧ (m.colSize : Int) ≤ p.1.max)
    (hn : (L.flatten.length : Int) + ops.length ≤ T.toSigned.max) :
    typedRun T (emb m) ops = (fun s => (emb s.1, s.2)) <$> csrRun m (ops.map (·.2)) := by
  induction ops generalizing m L with
  | nil => rfl
  | cons o ops ih =>
    obtain ⟨f1, f2, f3⟩ := hop o (by simp)
    rw [List.length_cons] at hn
    unfold typedRun
    rw [List.map_cons, csrRun, step_typed h hs hb o.2 f1 (f3 o (by simp)) f2 (hA o (by simp)).1 (by omega) (hA o (by simp)).2 hT.2
      (by omega)]
    obtain ⟨m1, h1, -⟩ := csrStep_ok (s := ⟨L.length, m.colSize, entry L⟩) ⟨L, h, hs, hb, rfl, rfl, rfl⟩ o.2 f1
    obtain ⟨L1, g1, g2, g3, g4, g5⟩ := step_sizes h hs hb o.2 f1 h1
    simp only [h1, Out.map_ok, Out.ok_bind]
    rw [ih g1 g2 g3 (fun q hq => ⟨(hop q (by simp [hq])).1, (hop q (by simp [hq])).2.1, fun p hp =>
      (hop q (by simp [hq])).2.2 p (by simp [hp])⟩) (g5 T f2 hT.1 hT.2) (fun p hp => g5 p.1 (f3 p (by simp [hp]))
        (hA p (by simp [hp])).1 (hA p (by simp [hp])).2) (by omega)]
    cases csrRun m1 (ops.map (·.2)) <;> rfl

/-- C156 as stated in the properties file: the types of the arguments and of the stored indices do not matter, as long as the
arguments fit their types and the stored indices fit theirs. -/
def C156 : Prop := ∀ (T : IntTy) (ops : List (IntTy × CsrOp Int)), T.bits = 32 ∨ T.bits = 64 →
  (∀ o ∈ ops, (o.1.bits = 32 ∨ o.1.bits = 64) ∧ o.2.Fits ∧ Holds o.1 o.2 ∧ Holds T o.2) → (ops.length : Int) ≤ T.toSigned.max →
  typedRun T TypedCsr.new ops = (fun s => (emb s.1, s.2)) <$> csrRun CsrData.new (ops.map (·.2))

/-- C156 fails: a matrix with more columns than an `int` can count loses an element when a row is appended with `int` indices. -/
theorem c156_violated : ¬ C156 := by
  intro h
  have := h IntTy.size [(IntTy.size, .resize 1 (2 ^ 32 + 1)), (IntTy.size, .insert 0 (2 ^ 32) 7), (IntTy.int, .insert 1 0 8)]
    (by decide) (by simp [CsrOp.Fits, Holds, sizeMax, IntTy.size, IntTy.int, IntTy.max]) (by decide)
  revert this
  decide +kernel

/-- Proved part of C156.  Missing: histories whose calls use types of different widths, when one of them does not hold what
another is given. -/
theorem c156_partial (T : IntTy) (ops : List (IntTy × CsrOp α))
    (hop : ∀ o ∈ ops, o.2.Fits ∧ Holds T o.2 ∧ ∀ p ∈ ops, Holds p.1 o.2) (hn : (ops.length : Int) ≤ T.toSigned.max) :
    typedRun T TypedCsr.new ops = (fun s => (emb s.1, s.2)) <$> csrRun CsrData.new (ops.map (·.2)) := by
  have one : ∀ (t : IntTy) (op : CsrOp α), Holds t op → (1 : Int) ≤ t.max := by
    intro t op h
    cases op <;> (have := h.1; omega)
  cases ops with
  | nil => rfl
  | cons o ops =>
    obtain ⟨-, f2, f3⟩ := hop o (by simp)
    obtain ⟨L, h1, h2, h3, h4, -⟩ := agrees_new (α := α)
    have h4 : L = [] := List.length_eq_zero_iff.mp h4
    subst h4
    refine run_typed (o :: ops) (m := CsrData.new) h1 h2 h3 hop ?_ ?_ (by simpa using hn)
    · have := one T o.2 f2
      simp [CsrData.new]
      omega
    · intro p hp
      have := one p.1 o.2 (f3 p hp)
      simp [CsrData.new]
      omega

/-- In particular, one type for all arguments, that holds them, is as good as any other. -/
theorem c156_one_type (A T : IntTy) (ops : List (CsrOp α)) (hop : ∀ op ∈ ops, op.Fits ∧ Holds A op ∧ Holds T op)
    (hn : (ops.length : Int) ≤ T.toSigned.max) :
    typedRun T TypedCsr.new (ops.map fun op => (A, op)) = (fun s => (emb s.1, s.2)) <$> csrRun CsrData.new ops := by
  have := c156_partial T (ops.map fun op => (A, op)) (by
    intro o ho
    obtain ⟨op, h1, rfl⟩ := List.mem_map.mp ho
    refine ⟨(hop op h1).1, (hop op h1).2.2, ?_⟩
    intro p hp
    obtain ⟨q, -, rfl⟩ := List.mem_map.mp hp
    exact (hop op h1).2.1) (by simpa using hn)
  rw [this]
  congr 2
  simp [Function.comp_def]

/-- Negative indices end the program. -/
theorem c156_negative (A T : IntTy) (m : TypedCsr α) (i j : Int) (v : α) (h : i < 0 ∨ j < 0) :
    TypedCsr.insert A T m i j v = .exit 1 ∧ TypedCsr.insertOrAssign A T m i j v = .exit 1 ∧ TypedCsr.resize A T m i j = .exit 1 ∧
      TypedCsr.lowerBound A T m i j = .exit 1 := by
  have e : ∀ {β : Type} (f : Unit → Unit → Out β), (Disa.assert (decide (0 ≤ i)) >>= fun a => Disa.assert (decide (0 ≤ j)) >>= f a) =
      .exit 1 := by
    intro β f
    by_cases hi : 0 ≤ i
    · rw [decide_eq_true hi, decide_eq_false (by omega)]
      rfl
    · rw [decide_eq_false hi]
      rfl
  have e1 : TypedCsr.insert A T m i j v = .exit 1 := by unfold TypedCsr.insert; exact e _
  refine ⟨e1, ?_, by unfold TypedCsr.resize; exact e _, by unfold TypedCsr.lowerBound; exact e _⟩
  unfold TypedCsr.insertOrAssign
  rw [e1]
  rfl

/-- What happens outside the proved part: with more columns than the type of the arguments holds, appending a row ends the
program if the number of columns converts to a negative one. -/
theorem c156_exit {A T : IntTy} {m : CsrData α} (hm : Reached m) {i j : Nat} (hi : CsrData.sizeRow m ≤ i) (hiA : (i : Int) + 1 ≤ A.max)
    (hrT : (CsrData.sizeRow m : Int) ≤ T.max) (hc : A.cast m.colSize < 0) (v : α) : TypedCsr.insert A T (emb m) i j v = .exit 1 := by
  obtain ⟨-, L, h, -⟩ := reached_agrees hm
  rw [csr_sizeRow, h.sizeRow] at hi hrT
  have hcm := (IntTy.max_common A IntTy.int).1
  have hd : ∀ n : Nat, decide ((0 : Int) ≤ n) = true := by intro n; simp
  unfold TypedCsr.insert
  rw [hd, hd, assert_true, Out.ok_bind, Out.ok_bind, sizeRow_typed h hrT, IntTy.lt_nat (by omega) hrT,
    decide_eq_false (by omega), show (i : Int) + 1 = ((i + 1 : Nat) : Int) by omega, IntTy.arith_nat (by omega)]
  simp only [Bool.not_false, if_true, Out.ok_bind]
  rw [(c156_negative A T (emb m) ((i + 1 : Nat) : Int) (A.cast (emb m).columns) v (.inr hc)).2.2.1]
  rfl

/-- Otherwise all elements behind the converted number of columns are erased before the element is stored. -/
theorem c156_loss {A T : IntTy} {m : CsrData α} (hm : Reached m) {i j c : Nat} (hi : CsrData.sizeRow m ≤ i) (hiA : (i : Int) + 2 ≤ A.max)
    (hiT : (i : Int) + 2 ≤ T.max) (hi' : i + 1 < sizeMax) (hj : j < sizeMax) (hjA : (j : Int) + 1 ≤ A.max) (hjT : (j : Int) + 1 ≤ T.max)
    (hc : A.cast m.colSize = c) (hc0 : 0 < c) (hcA : (c : Int) ≤ A.max) (hmT : (m.colSize : Int) ≤ T.max)
    (hn : (m.cols.length : Int) + 1 ≤ T.toSigned.max) (hlt : c < m.colSize) (v : α) :
    TypedCsr.insert A T (emb m) i j v = (fun s => (emb s.1, s.2)) <$> (CsrData.resize m (i + 1) c >>= fun m' => CsrData.insert m' i j v) := by
  obtain ⟨-, L, h, hs, hb, -⟩ := reached_agrees hm
  rw [csr_sizeRow, h.sizeRow] at hi
  rw [h.lengths.1] at hn
  have hsg := IntTy.max_signed T
  have hcm := (IntTy.max_common A IntTy.int).1
  have hd : ∀ n : Nat, decide ((0 : Int) ≤ n) = true := by intro n; simp
  obtain ⟨m1, k1, k2, k3⟩ := h.resize hs c (r := i + 1) (by omega)
  have hl1 : (resRows m.colSize (i + 1) c L).length = i + 1 := resRows_length _ _ _ _
  have hs1 := sorted_resRows hs m.colSize (i + 1) c
  have hb1 : Bounded m1.colSize (resRows m.colSize (i + 1) c L) := by
    rw [bounded_entry]
    intro a b hne
    rw [entry_resRows, usub_of_le (by omega)] at hne
    split at hne
    · rename_i hh
      have := hh.2 hlt
      omega
    · exact absurd rfl hne
  have hf := resRows_flat m.colSize (i + 1) c L
  have e0 : TypedCsr.insert A T (emb m) i j v = TypedCsr.insert A T (emb m1) i j v := by
    unfold TypedCsr.insert
    rw [hd, hd, assert_true, Out.ok_bind, Out.ok_bind, sizeRow_typed h (by omega), sizeRow_typed k3 (by omega),
      IntTy.lt_nat (by omega) (by omega), IntTy.lt_nat (by omega) (by omega), decide_eq_false (by omega), decide_eq_true (by omega),
      show (i : Int) + 1 = ((i + 1 : Nat) : Int) by omega, IntTy.arith_nat (by omega)]
    simp only [Bool.not_false, Bool.not_true, Bool.false_eq_true, if_true, if_false, Out.ok_bind, Out.pure_eq]
    rw [show A.cast (emb m).columns = (c : Int) from hc, resize_typed h hs hb (by omega) (by omega) (by omega) (by omega) hcA
      (by omega) hmT (fun _ => ⟨hc0, by omega⟩), csr_resize, k1]
    rfl
  rw [e0, csr_resize, k1, Out.ok_bind]
  exact insert_typed k3 hs1 hb1 hi' hj (by omega) (by omega) hiA (by omega) (by omega) (by omega) hjA hjT (fun _ => by omega) v

/-- The two largest rows of a signed type cannot be appended: the arithmetic overflows. -/
theorem c156_overflow {A T : IntTy} {m : CsrData α} (hm : Reached m) {i j : Nat} (hA : A.signed = true) (hbits : 32 ≤ A.bits)
    (hi : CsrData.sizeRow m ≤ i) (h1 : (i : Int) ≤ A.max) (h2 : A.max < (i : Int) + 2) (hrT : (CsrData.sizeRow m : Int) ≤ T.max)
    (hcA : (m.colSize : Int) ≤ A.max) (v : α) : TypedCsr.insert A T (emb m) i j v = .ub := by
  obtain ⟨-, L, h, -⟩ := reached_agrees hm
  rw [csr_sizeRow, h.sizeRow] at hi hrT
  have hcm : common A IntTy.int = A := by
    obtain ⟨b, s⟩ := A
    simp only at hA hbits
    subst hA
    unfold IntTy.common IntTy.promote IntTy.int
    simp only [show ¬ b < 32 by omega, if_false, show ¬ (32 : Nat) < 32 by omega]
    split
    · rfl
    · have : b = 32 := by omega
      subst this
      rfl
  have hov : ∀ x : Int, A.max < x → A.arith x = .ub := by
    intro x hx
    unfold IntTy.arith
    rw [if_pos hA, if_neg (by omega)]
  have hd : ∀ n : Nat, decide ((0 : Int) ≤ n) = true := by intro n; simp
  unfold TypedCsr.insert
  rw [hd, hd, assert_true, Out.ok_bind, Out.ok_bind, sizeRow_typed h hrT, IntTy.lt_nat (by omega) hrT,
    decide_eq_false (by omega), hcm]
  simp only [Bool.not_false, if_true]
  by_cases h3 : A.max < (i : Int) + 1
  · rw [hov _ h3]
    rfl
  · rw [show (i : Int) + 1 = ((i + 1 : Nat) : Int) by omega, IntTy.arith_nat (by omega)]
    simp only [Out.ok_bind]
    have : TypedCsr.resize A T (emb m) ((i + 1 : Nat) : Int) (A.cast (emb m).columns) = .ub := by
      unfold TypedCsr.resize
      rw [show A.cast (emb m).columns = (m.colSize : Int) from IntTy.cast_nat hcA, hd, hd, assert_true, Out.ok_bind, Out.ok_bind,
        sizeRow_typed h hrT, IntTy.lt_nat (by omega) hrT, decide_eq_false (by omega), hcm, hov _ (by omega)]
      rfl
    rw [this]
    rfl

/-! ### Concrete cases -/

-- An `int` matrix that is handled with `std::size_t` and with `int`: what the types hold.
example : ∀ o ∈ [(IntTy.size, (.resize 2 3 : CsrOp Int)), (IntTy.int, .insert 0 2 7), (IntTy.size, .insertOrAssign 4 1 8),
    (IntTy.int, .resize 5 2)], o.2.Fits ∧ Holds IntTy.int o.2 ∧
      ∀ p ∈ [(IntTy.size, (.resize 2 3 : CsrOp Int)), (IntTy.int, .insert 0 2 7), (IntTy.size, .insertOrAssign 4 1 8),
        (IntTy.int, .resize 5 2)], Holds p.1 o.2 := by
  simp [CsrOp.Fits, Holds, sizeMax, IntTy.size, IntTy.int, IntTy.max]

example : typedRun IntTy.int TypedCsr.new [(IntTy.size, (.resize 2 3 : CsrOp Int)), (IntTy.int, .insert 0 2 7),
    (IntTy.size, .insertOrAssign 4 1 8), (IntTy.int, .resize 5 2)] =
      .ok (⟨[0, 0, 0, 0, 0, 1], [1], [8], 2⟩, [none, some true, some true, none]) := by
  decide +kernel

-- A matrix with 2³² + 1 columns: appending a row with `int` indices erases the element of the last column.
example : typedRun IntTy.size TypedCsr.new [(IntTy.size, (.insert 0 (2 ^ 32) 7 : CsrOp Int)), (IntTy.int, .insert 1 0 8)] =
    .ok (⟨[0, 0, 1], [0], [8], 1⟩, [some true, some true]) := by
  decide +kernel

-- One with 2³¹ columns: the program ends.
example : typedRun IntTy.size TypedCsr.new [(IntTy.size, (.insert 0 (2 ^ 31 - 1) 7 : CsrOp Int)), (IntTy.int, .insert 1 0 8)] =
    .exit 1 := by
  decide +kernel

-- The hypotheses of `c156_loss` and `c156_exit`, for the two.
example : Reached (⟨[0, 1], [2 ^ 32], [7], 2 ^ 32 + 1⟩ : CsrData Int) ∧ IntTy.int.cast ((2 ^ 32 + 1 : Nat) : Int) = (1 : Nat) ∧
    ((1 : Nat) : Int) + 2 ≤ IntTy.int.max ∧ ((2 ^ 32 + 1 : Nat) : Int) ≤ IntTy.size.max ∧ ((1 : Nat) : Int) + 1 ≤ IntTy.size.toSigned.max :=
  ⟨⟨[.insert 0 (2 ^ 32) 7], [some true], by simp [CsrOp.Fits, sizeMax], by decide +kernel⟩, by decide +kernel, by decide +kernel,
    by decide +kernel, by decide +kernel⟩
example : Reached (⟨[0, 1], [2 ^ 31 - 1], [7], 2 ^ 31⟩ : CsrData Int) ∧ IntTy.int.cast ((2 ^ 31 : Nat) : Int) < 0 :=
  ⟨⟨[.insert 0 (2 ^ 31 - 1) 7], [some true], by simp [CsrOp.Fits, sizeMax], by decide +kernel⟩, by decide +kernel⟩

-- The largest row but one, with `int` indices.
example : TypedCsr.insert IntTy.int IntTy.size (emb (⟨[0, 1], [0], [7], 1⟩ : CsrData Int)) (2 ^ 31 - 2 : Nat) 0 8 = .ub := by
  have hm : Reached (⟨[0, 1], [0], [7], 1⟩ : CsrData Int) :=
    ⟨[.insert 0 0 7], [some true], by simp [CsrOp.Fits, sizeMax], by decide +kernel⟩
  exact c156_overflow (j := 0) hm rfl (by decide) (by decide) (by decide) (by decide) (by decide) (by decide) 8

end Disa.Props
