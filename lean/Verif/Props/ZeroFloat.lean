import Verif.Dense.GeometryZero
import Verif.Sparse.Hom
import Verif.Props.SignFloat
import Verif.Props.LuFloat
import Verif.Props.UnitFloat

/-!
# Properties: signs of zeros
-/

namespace Disa.Props

open Disa Spec Dense Sparse Num Lu

/-! ## C136: signs of zeros -/

namespace ZeroFloat

open Signed

theorem hom : Hom Signed.val := ⟨rfl, fun _ _ => rfl, fun _ _ => rfl, fun _ _ => rfl⟩

/-- The values of a vector, without the signs of zeros. -/
abbrev plainVec (v : List Signed) : List (Num binary64) := v.map Signed.val

/-- The values of a matrix. -/
abbrev plainMat (m : List (List Signed)) : List (List (Num binary64)) := mapMat Signed.val m

end ZeroFloat

open ZeroFloat Signed

/-- The values of sums, differences, multiples and products of vectors do not depend on signs of zeros. -/
theorem c136_vector (s t : Nat) (v w : List Signed) (o : Option (List Signed)) (a : Ref Nat Signed) :
    Dense.add s t (plainVec v) (plainVec w) = plainVec <$> Dense.add s t v w ∧ Dense.sub s t (plainVec v) (plainVec w) = plainVec <$> Dense.sub s t v w ∧
    mulScalar (plainVec v) (Hom.ref Signed.val a) = plainVec <$> mulScalar v a ∧ addAssign (plainVec v) (o.map plainVec) = plainVec <$> addAssign v o ∧
    subAssign (plainVec v) (o.map plainVec) = plainVec <$> subAssign v o ∧ dot (plainVec v) (plainVec w) = Signed.val <$> dot v w ∧
    cross s t (plainVec v) (plainVec w) = plainVec <$> cross s t v w :=
  ⟨hom.dense_add s t v w, hom.dense_sub s t v w, hom.mulScalar_map v a, hom.addAssign_map v o, hom.subAssign_map v o, hom.dot_map v w,
    hom.cross_map s t v w⟩

/-- The same of matrices. -/
theorem c136_matrix (d e : Dims) (fixed : Bool) (m n : List (List Signed)) (o : Option (List (List Signed))) (a : Ref (Nat × Nat) Signed)
    (r s : Nat) (v : List Signed) :
    matAdd d e (plainMat m) (plainMat n) = plainMat <$> matAdd d e m n ∧ matSub d e (plainMat m) (plainMat n) = plainMat <$> matSub d e m n ∧
    matMulScalar (plainMat m) (Hom.ref Signed.val a) = plainMat <$> matMulScalar m a ∧
    mulAssign fixed (plainMat m) (o.map plainMat) = plainMat <$> mulAssign fixed m o ∧
    matMul d e (plainMat m) (plainMat n) = plainMat <$> matMul d e m n ∧ matVec r s (plainMat m) (plainVec v) = plainVec <$> matVec r s m v :=
  ⟨hom.matAdd_map d e m n, hom.matSub_map d e m n, hom.matMulScalar_map m a, hom.mulAssign_map fixed m o, hom.matMul_map d e m n,
    hom.matVec_map r s m v⟩

/-- The same of sparse matrices, of which the positions of the elements do not depend on signs of zeros either. -/
theorem c136_sparse (isAdd static : Bool) (m : Sparse Signed) (o : Option (Sparse Signed)) (v : List Signed) :
    arith isAdd (m.map Signed.val) (o.map (Sparse.map Signed.val)) = Sparse.map Signed.val <$> arith isAdd m o ∧
    mul (m.map Signed.val) (o.map (Sparse.map Signed.val)) = Sparse.map Signed.val <$> mul m o ∧
    mulVec static (m.map Signed.val) (plainVec v) = plainVec <$> mulVec static m v :=
  ⟨arith_map Signed.val rfl (fun _ _ => rfl) (fun _ => rfl) isAdd m o, mul_map hom m o, hom.mulVec_map static m v⟩

namespace ZeroFloat

/-- Not negative, which includes NaN. -/
theorem sign_false {a : Signed} (h : a.sign = false) : a.val = .nan ∨ a.val = .inf false ∨ ∃ p : ℚ, 0 ≤ p ∧ a.val = .fin p := by
  unfold sign at h
  split at h
  · rename_i q hq
    refine .inr (.inr ⟨q, ?_, hq⟩)
    split at h
    · rename_i h0; exact h0.ge
    · simpa using h
  · rename_i s hs
    exact .inr (.inl (h ▸ hs))
  · rename_i h1; exact .inl h1

theorem sign_of_pos {a : Signed} (h : a.val = .nan ∨ Pos a.val) (hm : a.minus = false) : a.sign = false := by
  unfold sign
  rcases h with h | h | ⟨r, hr, h⟩ <;> rw [h]
  show (if r = 0 then a.minus else decide (r < 0)) = false
  split
  · exact hm
  · simpa using hr

theorem sign_add {a b : Signed} (ha : a.sign = false) (hb : b.sign = false) : (a + b).sign = false := by
  refine sign_of_pos ?_ (show (a.sign && b.sign) = false by rw [ha]; rfl)
  show a.val + b.val = .nan ∨ Pos (a.val + b.val)
  rcases sign_false ha with h | h
  · rw [h]; exact .inl rfl
  rcases sign_false hb with h' | h'
  · rw [h']; rcases h with h | ⟨p, -, h⟩ <;> rw [h] <;> exact .inl rfl
  exact .inr (pos_add h h').1

theorem sign_square (a : Signed) : (a * a).sign = false := by
  refine sign_of_pos ?_ (show (a.sign != a.sign) = false by simp)
  show a.val * a.val = .nan ∨ Pos (a.val * a.val)
  rcases a.val with _ | s | q
  · exact .inl rfl
  · exact .inr (.inl (by show Fl.inf (s != s) = _; simp))
  · exact .inr (binary64_nonneg_cases (mul_self_nonneg q))

theorem sign_count (n : Nat) : (of (binary64 n)).sign = false :=
  sign_of_pos (.inr (binary64_nonneg_cases (Nat.cast_nonneg n))) rfl

theorem squares (v : List Signed) (a : Signed) (h : a.minus = false) :
    (v.foldl (fun a b => a + b * b) a).val = (plainVec v).foldl (fun a b => a + b * b) a.val ∧
      (v.foldl (fun a b => a + b * b) a).minus = false := by
  induction v generalizing a with
  | nil => exact ⟨rfl, h⟩
  | cons b l ih => exact ih (a + b * b) (show (a.sign && (b * b).sign) = false by rw [sign_square]; simp)

theorem norm2_val (sqrt : Num binary64 → Num binary64) (v : List Signed) :
    (norm2 sqrt v).val = Rounded.norm2 sqrt (plainVec v) ∧ (norm2 sqrt v).minus = false :=
  ⟨congrArg sqrt (squares v 0 rfl).1, (squares v 0 rfl).2⟩

theorem sum_val (v : List Signed) (a : Signed) : (v.foldl (· + ·) a).val = (plainVec v).foldl (· + ·) a.val := by
  induction v generalizing a with
  | nil => rfl
  | cons b l ih => exact ih (a + b)

theorem sizes_val (v : List Signed) (a : Signed) :
    (v.foldl (fun a b => a + Signed.abs b) a).val = (plainVec v).foldl (fun a b => a + Rounded.size b) a.val := by
  induction v generalizing a with
  | nil => rfl
  | cons b l ih => exact ih (a + Signed.abs b)

theorem maxElement_val (v : List Signed) :
    maxElement (fun a b => Fl.lt (Rounded.size a) (Rounded.size b)) (plainVec v) =
      Signed.val <$> maxElement (fun a b => Fl.lt (Signed.abs a).val (Signed.abs b).val) v := by
  cases v with
  | nil => rfl
  | cons a l =>
    show Out.ok _ = Out.ok _
    congr 1
    induction l generalizing a with
    | nil => rfl
    | cons b l ih =>
      rw [List.map_cons, List.foldl_cons, List.foldl_cons, ← ih]
      congr 1
      show (if Fl.lt (Signed.abs a).val (Signed.abs b).val = true then b.val else a.val) =
        Signed.val (if Fl.lt (Signed.abs a).val (Signed.abs b).val = true then b else a)
      split <;> rfl

theorem unit_val (sqrt : Num binary64 → Num binary64) (v : List Signed) : Rounded.unit sqrt (plainVec v) = plainVec <$> Signed.unit sqrt v := by
  unfold Rounded.unit Signed.unit
  have h : (of (Num.fin 1) / norm2 sqrt v).val = Num.fin 1 / Rounded.norm2 sqrt (plainVec v) := by
    rw [val_div _ _ fun _ => (norm2_val sqrt v).2, (norm2_val sqrt v).1]
    rfl
  simp only [← h]
  rw [← hom.mulScalar_map]
  show mulScalar (plainVec v) (.val _) = mulScalar (plainVec v) (.val _)
  congr 2
  split <;> rfl

theorem tangent_val (sqrt : Num binary64 → Num binary64) (s t : Nat) (v w : List Signed) :
    Rounded.projectionTangent sqrt s t (plainVec v) (plainVec w) = plainVec <$> Signed.projectionTangent sqrt s t v w := by
  unfold Rounded.projectionTangent Signed.projectionTangent
  rw [← (norm2_val sqrt w).1, List.length_map, List.length_map]
  refine bind_hom_same _ fun _ _ => bind_hom_same _ fun _ _ => bind_hom Signed.val _ (hom.dot_map v w) fun d _ => ?_
  refine bind_hom plainVec _ (hom.vecOf_map fun i => rd_map Signed.val w i) fun r _ => ?_
  exact hom.mulScalar_map r (.val d)

theorem clamp_val (a b c : Signed) : Rounded.clamp a.val b.val c.val = (Signed.clamp a b c).val := by
  unfold Rounded.clamp Signed.clamp
  split
  · rfl
  · split <;> rfl

end ZeroFloat

/-- The values of norms, means, unit vectors, angles and projections do not depend on signs of zeros. -/
theorem c136_norm (sqrt acos : Num binary64 → Num binary64) (radians : Bool) (s t : Nat) (v w : List Signed) :
    Rounded.normMax (plainVec v) = Signed.val <$> Signed.normMax v ∧ Rounded.norm1 (plainVec v) = (Signed.norm1 v).val ∧
    Rounded.norm2 sqrt (plainVec v) = (Signed.norm2 sqrt v).val ∧ Rounded.mean s (plainVec v) = Signed.val <$> Signed.mean s v ∧
    Rounded.unit sqrt (plainVec v) = plainVec <$> Signed.unit sqrt v ∧
    Rounded.angle sqrt acos radians (plainVec v) (plainVec w) = Signed.val <$> Signed.angle sqrt acos radians v w ∧
    Rounded.projectionTangent sqrt s t (plainVec v) (plainVec w) = plainVec <$> Signed.projectionTangent sqrt s t v w ∧
    Rounded.projectionOrthogonal sqrt s t (plainVec v) (plainVec w) = plainVec <$> Signed.projectionOrthogonal sqrt s t v w := by
  refine ⟨?_, ?_, (norm2_val sqrt v).1.symm, ?_, unit_val sqrt v, ?_, tangent_val sqrt s t v w, ?_⟩
  · exact bind_hom Signed.val _ (maxElement_val v) fun _ _ => rfl
  · unfold Rounded.norm1 Signed.norm1
    exact (sizes_val v 0).symm
  · unfold Rounded.mean Signed.mean
    rw [List.isEmpty_map, List.length_map]
    refine bind_hom_same _ fun _ _ => ?_
    show Out.ok _ = Out.ok _
    rw [val_div _ _ fun _ => rfl, sum_val]
    rfl
  · unfold Rounded.angle Signed.angle
    rw [List.length_map, List.length_map]
    refine bind_hom_same _ fun _ _ => bind_hom_same _ fun _ _ => bind_hom plainVec _ (unit_val sqrt v) fun a _ =>
      bind_hom plainVec _ (unit_val sqrt w) fun b _ => bind_hom Signed.val _ (hom.dot_map a b) fun d _ => ?_
    show Out.ok _ = Out.ok _
    cases radians
    · show Out.ok _ = Out.ok (of _ / (of _ / of _)).val
      rw [val_div _ _ (fun h => absurd h (by decide +kernel)), val_div _ _ fun _ => rfl, ← clamp_val]
      rfl
    · show Out.ok _ = Out.ok (of _ / of _).val
      rw [val_div _ _ fun _ => rfl, ← clamp_val]
      rfl
  · unfold Rounded.projectionOrthogonal Signed.projectionOrthogonal
    rw [List.length_map, List.length_map]
    exact bind_hom_same _ fun _ _ => bind_hom plainVec _ (hom.vecOf_map fun i => rd_map Signed.val v i) fun x _ =>
      bind_hom plainVec _ (tangent_val sqrt s t v w) fun y _ => hom.dense_sub _ _ x y

namespace ZeroFloat

/-- The data of a direct solver without the signs of zeros. -/
def plainLu (s : Lu Signed) : Lu (Num binary64) := ⟨s.factorised, s.tol.val, plainMat s.lu, s.piv⟩

theorem swapAt_map {S T : Type} (f : S → T) (l : List S) (i j : Nat) : swapAt (l.map f) i j = List.map f <$> swapAt l i j := by
  unfold swapAt
  refine bind_hom f _ (rd_map f l i) fun a _ => bind_hom f _ (rd_map f l j) fun b _ => ?_
  exact bind_hom (List.map f) _ (wr_map f l i b) fun l _ => wr_map f l j a

/-- The matrix and the pivots, without the signs of zeros. -/
def plainFst {β : Type} (st : List (List Signed) × β) : List (List (Num binary64)) × β := (plainMat st.1, st.2)

theorem search_val (lu : List (List Signed)) (i k : Nat) (st : Signed × Nat) :
    searchBody (Num.arith binary64) (plainMat lu) i k (st.1.val, st.2) =
      (fun st : Signed × Nat => (st.1.val, st.2)) <$> searchBody Signed.arith lu i k st := by
  unfold searchBody
  refine bind_hom Signed.val _ (rd2_map Signed.val lu _ _) fun a _ => ?_
  rw [show (Num.arith binary64).nearlyGreater ((Num.arith binary64).abs a.val) st.1.val (Num.arith binary64).rel (Num.arith binary64).tol =
    Signed.arith.nearlyGreater (Signed.arith.abs a) st.1 Signed.arith.rel Signed.arith.tol from
      nearlyGreater_val (Signed.arith.abs a) st.1 Signed.arith.rel Signed.arith.tol]
  refine bind_hom_same _ fun g _ => ?_
  cases g <;> rfl

theorem pivot_val (i : Nat) (st : List (List Signed) × List Nat) :
    pivotStep (Num.arith binary64) i (plainFst st) = plainFst <$> pivotStep Signed.arith i st := by
  unfold pivotStep
  refine bind_hom (fun st : Signed × Nat => (st.1.val, st.2)) _ ?_ fun r _ => ?_
  · show loop (sizeColumn (plainMat st.1) - i) _ _ = _
    rw [sizeColumn_map]
    exact loop_hom (fun st : Signed × Nat => (st.1.val, st.2)) _ (fun k st' _ => search_val st.1 i k st') (0, i)
  · show (if (r.2 != i) = true then _ else _) = plainFst <$> (if (r.2 != i) = true then _ else _)
    split
    · refine bind_hom_same _ fun piv _ => bind_hom plainMat _ ?_ fun lu _ => rfl
      exact swapAt_map (List.map Signed.val) st.1 i r.2
    · rfl

/-- Loops whose bodies commute with a change of the state as long as an invariant holds. -/
theorem loop_hom_inv {σ τ : Type} (φ : σ → τ) (P : σ → Prop) {f : Nat → σ → Out σ} {g : Nat → τ → Out τ} (n : Nat)
    (h : ∀ i s, P s → g i (φ s) = φ <$> f i s) (hP : ∀ i s s', P s → f i s = .ok s' → P s') (s : σ) (hs : P s) :
    loop n g (φ s) = φ <$> loop n f s := by
  induction n with
  | zero => rfl
  | succ n ih =>
    unfold loop
    rw [ih]
    cases e : loop n f s <;> first | rfl | skip
    exact h _ _ (loop_inv_of_ok (fun _ s => P s) hs (fun i s s' _ h1 h2 => hP i s s' h1 h2) e)

/-- The element that is divided by is not zero. -/
def Divisor (i : Nat) (lu : List (List Signed)) : Prop := ∀ d, rd2 lu i i = .ok d → d.val ≠ 0

theorem divisor_wr {i r c : Nat} {lu lu' : List (List Signed)} {a : Signed} (h : Divisor i lu) (hr : i < r) (e : wr2 lu r c a = .ok lu') :
    Divisor i lu' := by
  unfold wr2 at e
  simp only [Out.bind_eq_ok] at e
  obtain ⟨x, -, y, -, e⟩ := e
  unfold wr at e
  split at e
  · simp only [Out.ok.injEq] at e
    subst e
    intro d hd
    apply h d
    unfold rd2 rd at *
    rwa [List.getElem?_set_ne (by omega)] at hd
  · cases e

theorem eliminate_val (i k : Nat) (lu : List (List Signed)) (h : Divisor i lu) :
    eliminateRow i k (plainMat lu) = plainMat <$> eliminateRow i k lu := by
  unfold eliminateRow
  refine bind_hom Signed.val _ (rd2_map _ lu _ _) fun a _ => bind_hom Signed.val _ (rd2_map _ lu _ _) fun d hd => ?_
  rw [← val_div a d fun h0 => absurd h0 (h d hd)]
  refine bind_hom plainMat _ (wr2_map _ lu _ _ _) fun lu _ => ?_
  rw [sizeColumn_map]
  refine loop_hom plainMat _ (fun c lu _ => ?_) lu
  exact bind_hom Signed.val _ (rd2_map _ lu _ _) fun x _ => bind_hom Signed.val _ (rd2_map _ lu _ _) fun l _ =>
    bind_hom Signed.val _ (rd2_map _ lu _ _) fun u _ => wr2_map _ lu _ _ (x - l * u)

theorem eliminate_divisor {i k : Nat} {lu lu' : List (List Signed)} (h : Divisor i lu) (e : eliminateRow i k lu = .ok lu') : Divisor i lu' := by
  unfold eliminateRow at e
  simp only [Out.bind_eq_ok] at e
  obtain ⟨a, -, d, -, lu1, e1, e⟩ := e
  refine loop_inv_of_ok (fun _ s => Divisor i s) (divisor_wr h (by omega) e1) ?_ e
  intro c s s' _ hs e
  simp only [Out.bind_eq_ok] at e
  obtain ⟨x, -, l, -, u, -, e⟩ := e
  exact divisor_wr hs (by omega) e

theorem body_val (pivot : Bool) {tol : Signed} {t : ℚ} (ht : 0 < t) (hs : tol.val = .fin t) (i : Nat) (st : List (List Signed) × List Nat × Bool) :
    factoriseBody (Num.arith binary64) pivot tol.val i (plainFst st) = plainFst <$> factoriseBody Signed.arith pivot tol i st := by
  unfold factoriseBody
  show (if st.2.2 = true then _ else _) = plainFst <$> (if st.2.2 = true then _ else _)
  split
  · refine bind_hom plainFst _ ?_ fun r _ => bind_hom Signed.val _ (rd2_map _ r.1 i i) fun d hd => ?_
    · cases pivot
      · rfl
      · exact pivot_val i (st.1, st.2.1)
    · show (if Fl.lt (Fl.abs d.val) tol.val = true then _ else _) = plainFst <$> (if Fl.lt (Fl.abs d.val) tol.val = true then _ else _)
      split
      · rfl
      · rename_i hlt
        refine bind_hom plainMat _ ?_ fun _ _ => rfl
        show loop ((plainMat r.1).length - (i + 1)) _ _ = _
        rw [mapMat_length]
        refine loop_hom_inv plainMat (Divisor i) _ (fun k lu h => eliminate_val i k lu h) (fun k lu lu' h e => eliminate_divisor h e) r.1 ?_
        intro d' hd' h0
        rw [hd, Out.ok.injEq] at hd'
        subst hd'
        rw [h0, hs] at hlt
        exact hlt (by show decide (|(0 : ℚ)| < t) = true; simpa using ht)
  · rfl

theorem factorise_val (pivot : Bool) (s : Lu Signed) {t : ℚ} (ht : 0 < t) (hs : s.tol.val = .fin t) (a : List (List Signed)) :
    factorise (Num.arith binary64) pivot (plainLu s) (plainMat a) =
      (fun r : Lu Signed × Bool => (plainLu r.1, r.2)) <$> factorise Signed.arith pivot s a := by
  unfold factorise
  refine bind_hom plainFst _ ?_ fun _ _ => rfl
  rw [mapMat_length, sizeColumn_map]
  exact loop_hom plainFst _ (fun i st _ => body_val pivot ht hs i st) (a, _, true)

theorem solve_val (pivot : Bool) (s : Lu Signed) (hd : ∀ i, Divisor i s.lu) (x : List Signed) (b : Option (List Signed)) :
    Lu.solve pivot (plainLu s) (plainVec x) (b.map plainVec) =
      (fun r : List Signed × Bool × Nat => (plainVec r.1, r.2)) <$> Lu.solve pivot s x b := by
  have ho : ∀ x, (b.map plainVec).getD (plainVec x) = plainVec (b.getD x) := by intro x; cases b <;> rfl
  unfold Lu.solve
  show (Disa.assert (((b.map plainVec).getD (plainVec x)).length == (plainMat s.lu).length) >>= _) = _
  simp only [ho, List.length_map, mapMat_length]
  refine bind_hom_same _ fun _ _ => ?_
  show (if (!s.factorised) = true then _ else _) = _ <$> (if (!s.factorised) = true then _ else _)
  split
  · rfl
  · refine bind_hom plainVec _ ?_ fun x _ => bind_hom plainVec _ ?_ fun x _ => rfl
    · show loop (plainMat s.lu).length _ (resizeList (plainVec x) _ (Signed.val 0)) = _
      rw [mapMat_length, resizeList_map]
      refine loop_hom plainVec _ (fun i x _ => ?_) _
      unfold forwardBody
      refine bind_hom_same _ fun p _ => ?_
      rw [ho]
      refine bind_hom Signed.val _ (rd_map _ _ p) fun v _ => bind_hom plainVec _ (wr_map _ x i v) fun x _ => ?_
      exact loop_hom plainVec _ (fun c x _ => bind_hom Signed.val _ (rd_map _ x i) fun y _ => bind_hom Signed.val _ (rd2_map _ s.lu i c)
        fun l _ => bind_hom Signed.val _ (rd_map _ x c) fun z _ => wr_map _ x i (y - l * z)) x
    · show loop (plainMat s.lu).length (fun k x => backwardBody (plainLu s) ((plainMat s.lu).length - 1 - k) x) _ = _
      rw [mapMat_length]
      refine loop_hom plainVec _ (fun i x _ => ?_) _
      unfold backwardBody
      show (loop (sizeColumn (plainMat s.lu) - _) _ _ >>= _) = _
      rw [sizeColumn_map]
      refine bind_hom plainVec _ ?_ fun x _ => bind_hom Signed.val _ (rd_map _ x _) fun y _ =>
        bind_hom Signed.val _ (rd2_map _ s.lu _ _) fun d he => ?_
      · exact loop_hom plainVec _ (fun c x _ => bind_hom Signed.val _ (rd_map _ x _) fun y _ => bind_hom Signed.val _ (rd2_map _ s.lu _ _)
          fun u _ => bind_hom Signed.val _ (rd_map _ x _) fun z _ => wr_map _ x _ (y - u * z)) x
      · rw [← val_div y d fun h0 => absurd h0 (hd _ d he)]
        exact wr_map _ x _ (y / d)

end ZeroFloat

/-- With a positive tolerance the result of the factorisation of any square matrix, and then the solution of any system with it, does
not depend on signs of zeros, but for signs of zeros. -/
theorem c136_direct (pivot : Bool) (s : Lu Signed) {t : ℚ} (ht : 0 < t) (hs : s.tol.val = .fin t) {n : Nat} (A : Fin n → Fin n → Signed) :
    factorise (Num.arith binary64) pivot (plainLu s) (plainMat (mat A)) =
      (fun r : Lu Signed × Bool => (plainLu r.1, r.2)) <$> factorise Signed.arith pivot s (mat A) ∧
    ∀ s' ok, factorise Signed.arith pivot s (mat A) = .ok (s', ok) → ∀ (x : List Signed) (b : Option (List Signed)),
      Lu.solve pivot (plainLu s') (plainVec x) (b.map plainVec) =
        (fun r : List Signed × Bool × Nat => (plainVec r.1, r.2)) <$> Lu.solve pivot s' x b := by
  refine ⟨factorise_val pivot s ht hs (mat A), fun s' ok e x b => ?_⟩
  have e1 := factorise_val pivot s ht hs (mat A)
  rw [e] at e1
  have hA : plainMat (mat A) = mat fun i j => (A i j).val := by simp [mapMat, mat, Function.comp_def]
  rw [hA] at e1
  obtain ⟨p, M, st, ok', e2, h2⟩ := factorise_rounded rounds_binary64 (by norm_num) pivot (plainLu s) ht hs fun i j => (A i j).val
  rw [e2, Out.map_ok, Out.ok.injEq, Prod.mk.injEq] at e1
  obtain ⟨e1, rfl⟩ := e1
  cases ok' with
  | false =>
    have hf : s'.factorised = false := (congrArg Lu.factorised e1).symm
    unfold Lu.solve
    have ho : (b.map plainVec).getD (plainVec x) = plainVec (b.getD x) := by cases b <;> rfl
    show (Disa.assert (((b.map plainVec).getD (plainVec x)).length == (plainMat s'.lu).length) >>= _) = _
    rw [ho, List.length_map, mapMat_length]
    refine bind_hom_same _ fun _ _ => ?_
    show (if (!s'.factorised) = true then _ else _) = _ <$> (if (!s'.factorised) = true then _ else _)
    rw [if_pos (by rw [hf]; rfl), if_pos (by rw [hf]; rfl)]
    rfl
  | true =>
    refine solve_val pivot s' (fun i d hd h0 => ?_) x b
    have hlu : mat M = plainMat s'.lu := congrArg Lu.lu e1
    have h3 : rd2 (mat M) i i = .ok d.val := by rw [hlu, rd2_map, hd]; rfl
    have hi : i < n := by
      by_contra hi
      rw [rd2, rd, List.getElem?_eq_none (by simpa using hi)] at h3
      cases h3
    rw [rd2_mat M hi hi, Out.ok.injEq] at h3
    have := (h2 rfl).diag ⟨i, hi⟩ hi
    rw [h3, h0, show (plainLu s).tol = .fin t from hs] at this
    have h4 : Fl.lt (Fl.abs (.fin 0)) (.fin t) = false := this
    simp [Fl.lt, Fl.abs, ht] at h4

/-- The scalars of the solvers with signed zeros. -/
def signed64 (sqrt : Num binary64 → Num binary64) : Scalars Signed Signed where
  one := of (Num.fin 1)
  threeHalves := of (Num.fin (3 / 2))
  ten := of (Num.fin 10)
  big := of (Num.fin ((2 - 1 / 2 ^ 52) * 2 ^ 1023))
  sqrt := root sqrt
  lt a b := Fl.lt a.val b.val
  count n := of (binary64 n)
  ratio x y := x / y
  plain x := x
  above x t := Fl.lt t.val x.val

namespace ZeroFloat

open Iterative

variable (sqrt : Num binary64 → Num binary64)

/-- The data of a fixed point solver without the signs of zeros. -/
def plainFixed (s : FixedPoint Signed) : FixedPoint (Num binary64) :=
  ⟨⟨s.limits.minIterations, s.limits.maxIteration, s.limits.tolerance.val⟩, plainVec s.working, s.relaxation.val⟩

/-- Convergence data without the signs of zeros. -/
def plainConv (d : Conv Signed Signed) : Conv (Num binary64) (Num binary64) :=
  ⟨d.converged, d.iteration, d.residual.val, d.residual0.val, d.residualNormalised.val, d.residualMax.val, d.residualMax0.val,
    d.residualMaxNormalised.val⟩

/-- No stored element of the diagonal is the negative zero. -/
def Diagonal (m : Sparse Signed) : Prop := ∀ i a, m.get i i = .ok a → a ≠ minusZero

theorem offRowDot_val (m : Sparse Signed) (x : List Signed) (i : Nat) :
    offRowDot (m.map Signed.val) (plainVec x) i = Signed.val <$> offRowDot m x i := by
  unfold offRowDot
  rw [rowBegin_map, rowEnd_map]
  refine bind_hom_same _ fun s _ => bind_hom_same _ fun e _ => loop_hom Signed.val _ (fun k v _ => ?_) 0
  refine bind_hom_same _ fun c _ => ?_
  split
  · exact bind_hom Signed.val _ (valAt_map _ m _) fun a _ => bind_hom Signed.val _ (rd_map _ x c) fun y _ => rfl
  · rfl

theorem sweepRow_val {m : Sparse Signed} (hm : Diagonal m) (b : List Signed) (omega : Signed) (x : Option (List Signed)) (i : Nat)
    (u : List Signed) :
    sweepRow (floats binary64 sqrt) (m.map Signed.val) (plainVec b) omega.val (x.map plainVec) i (plainVec u) =
      plainVec <$> sweepRow (signed64 sqrt) m b omega x i u := by
  have h : (x.map plainVec).getD (plainVec u) = plainVec (x.getD u) := by cases x <;> rfl
  unfold sweepRow
  rw [h]
  refine bind_hom_same _ fun _ _ => bind_hom Signed.val _ (offRowDot_val m _ i) fun d _ => bind_hom Signed.val _ (rd_map _ b i) fun c _ =>
    bind_hom Signed.val _ (get_map _ m i i) fun a ha => bind_hom Signed.val _ (rd_map _ _ i) fun y _ => ?_
  have : omega.val * (c.val - d.val) / a.val = (omega * (c - d) / a).val := by
    rw [val_div]
    · rfl
    · intro h0
      have := hm i a ha
      obtain ⟨v, b⟩ := a
      obtain rfl : v = 0 := h0
      cases b
      · rfl
      · exact absurd rfl this
  rw [this]
  exact wr_map _ u i (omega * (c - d) / a + ((signed64 sqrt).one - omega) * y)

theorem sweep_val {m : Sparse Signed} (hm : Diagonal m) (b : List Signed) (omega : Signed) (x : Option (List Signed)) (u : List Signed) :
    forwardSweep (floats binary64 sqrt) (m.map Signed.val) (plainVec b) omega.val (x.map plainVec) (plainVec u) =
      plainVec <$> forwardSweep (signed64 sqrt) m b omega x u :=
  loop_hom plainVec _ (fun i u _ => sweepRow_val sqrt hm b omega x i u) u

/-- Both vectors without the signs of zeros. -/
def plainBoth (st : List Signed × List Signed) : List (Num binary64) × List (Num binary64) := (plainVec st.1, plainVec st.2)

theorem step_val {m : Sparse Signed} (hm : Diagonal m) (k : Method) (s : FixedPoint Signed) (b : List Signed) (st : List Signed × List Signed) :
    Iterative.step (floats binary64 sqrt) k (plainFixed s) (m.map Signed.val) (plainVec b) (plainBoth st) =
      plainBoth <$> Iterative.step (signed64 sqrt) k s m b st := by
  cases k <;> unfold Iterative.step
  · exact bind_hom plainVec _ (sweep_val sqrt hm b (signed64 sqrt).one (some st.1) st.2) fun _ _ => rfl
  · exact bind_hom plainVec _ (sweep_val sqrt hm b (signed64 sqrt).one none st.1) fun _ _ => rfl
  · exact bind_hom plainVec _ (sweep_val sqrt hm b (signed64 sqrt).threeHalves none st.1) fun _ _ => rfl

/-- Two values. -/
def plainPair (p : Signed × Signed) : Num binary64 × Num binary64 := (p.1.val, p.2.val)

theorem residualBody_val (m : Sparse Signed) (x b : List Signed) (i : Nat) (st : Signed × Signed) :
    residualBody (floats binary64 sqrt) (m.map Signed.val) (plainVec x) (plainVec b) i (plainPair st) =
      plainPair <$> residualBody (signed64 sqrt) m x b i st := by
  unfold residualBody
  refine bind_hom_same _ fun _ _ => bind_hom Signed.val _ (hom.rowDot_map m x i) fun v _ => bind_hom Signed.val _ (rd_map _ b i) fun c _ => ?_
  simp only
  split
  · rfl
  · show Out.ok _ = Out.ok _
    congr 1
    show (st.1.val + (v.val - c.val) * (v.val - c.val), if Fl.lt st.2.val ((v - c) * (v - c)).val = true then ((v - c) * (v - c)).val
      else st.2.val) = (st.1.val + (v.val - c.val) * (v.val - c.val), Signed.val (if Fl.lt st.2.val ((v - c) * (v - c)).val = true then
        (v - c) * (v - c) else st.2))
    split <;> rfl

theorem residual_val (m : Sparse Signed) (x b : List Signed) :
    computeResidual (floats binary64 sqrt) (m.map Signed.val) (plainVec x) (plainVec b) = plainPair <$> computeResidual (signed64 sqrt) m x b ∧
      ∀ r, computeResidual (signed64 sqrt) m x b = .ok r → r.1.minus = false ∧ r.2.minus = false := by
  have key : ∀ st, loop m.sizeRow (residualBody (signed64 sqrt) m x b) (0, 0) = .ok st → st.1.sign = false ∧ st.2.minus = false := by
    intro st h
    refine loop_inv_of_ok (fun _ st => st.1.sign = false ∧ st.2.minus = false) ⟨by decide +kernel, rfl⟩ ?_ h
    intro i st st' _ hs e
    unfold residualBody at e
    simp only [Out.bind_eq_ok] at e
    obtain ⟨-, -, v, -, c, -, e⟩ := e
    split at e
    · cases e
    · simp only [Out.pure_eq, Out.ok.injEq] at e
      subst e
      refine ⟨sign_add hs.1 (sign_square _), ?_⟩
      show (if _ then (v - c) * (v - c) else st.2).minus = false
      split
      · show ((v - c).sign != (v - c).sign) = false
        simp
      · exact hs.2
  refine ⟨?_, ?_⟩
  · unfold computeResidual
    rw [List.length_map, List.length_map]
    refine bind_hom_same _ fun _ _ => bind_hom_same _ fun _ _ => bind_hom_same _ fun _ _ => bind_hom plainPair _ ?_ fun r _ => ?_
    · exact loop_hom plainPair _ (fun i st _ => residualBody_val sqrt m x b i st) (0, 0)
    · show Out.ok (sqrt (r.1.val / (of (binary64 x.length)).val), sqrt r.2.val) = Out.ok (sqrt (r.1 / of (binary64 x.length)).val, sqrt r.2.val)
      rw [val_div _ _ fun _ => rfl]
  · intro r h
    unfold computeResidual at h
    simp only [Out.bind_eq_ok] at h
    obtain ⟨-, -, -, -, -, -, st, h1, h⟩ := h
    simp only [Out.pure_eq, Out.ok.injEq] at h
    subst h
    refine ⟨?_, (key st h1).2⟩
    show (st.1.sign != (of (binary64 x.length)).sign) = false
    rw [(key st h1).1, sign_count]
    rfl

/-- The residuals that are divided by are not the negative zero. -/
def Started (d : Conv Signed Signed) : Prop := d.residual0.minus = false ∧ d.residualMax0.minus = false

theorem update_val (m : Sparse Signed) (x b : List Signed) (d : Conv Signed Signed) (hd : Started d) :
    update (floats binary64 sqrt) (m.map Signed.val) (plainVec x) (plainVec b) (plainConv d) = plainConv <$> update (signed64 sqrt) m x b d ∧
      ∀ d', update (signed64 sqrt) m x b d = .ok d' → Started d' := by
  obtain ⟨h1, h2⟩ := residual_val sqrt m x b
  have key : ∀ r, computeResidual (signed64 sqrt) m x b = .ok r →
      (if d.iteration = 0 then r.1 else d.residual0).minus = false ∧ (if d.iteration = 0 then r.2 else d.residualMax0).minus = false := by
    intro r hr
    split
    · exact h2 r hr
    · exact hd
  refine ⟨?_, ?_⟩
  · unfold update
    refine bind_hom plainPair _ h1 fun r hr => ?_
    obtain ⟨k1, k2⟩ := key r hr
    show Out.ok _ = Out.ok _
    congr 1
    unfold plainConv
    have e1 : (if d.iteration = 0 then r.1.val else d.residual0.val) = (if d.iteration = 0 then r.1 else d.residual0).val := by split <;> rfl
    have e2 : (if d.iteration = 0 then r.2.val else d.residualMax0.val) = (if d.iteration = 0 then r.2 else d.residualMax0).val := by
      split <;> rfl
    have e3 := val_div r.1 _ fun _ => k1
    have e4 := val_div r.2 _ fun _ => k2
    dsimp only
    rw [e1, e2]
    simp only [floats, signed64]
    rw [e3, e4]
  · intro d' h
    unfold update at h
    simp only [Out.bind_eq_ok] at h
    obtain ⟨r, hr, h⟩ := h
    simp only [Out.pure_eq, Out.ok.injEq] at h
    subst h
    exact key r hr

theorem while_hom {σ τ : Type} (φ : σ → τ) (P : σ → Prop) {c : σ → Bool} {d : τ → Bool} {f : σ → Out σ} {g : τ → Out τ}
    (hc : ∀ s, d (φ s) = c s) (h : ∀ s, P s → g (φ s) = φ <$> f s) (hP : ∀ s s', P s → f s = .ok s' → P s') (n : Nat) (s : σ) (hs : P s) :
    whileFuel d g n (φ s) = φ <$> whileFuel c f n s := by
  induction n generalizing s with
  | zero =>
    unfold whileFuel
    rw [hc]
    cases c s <;> rfl
  | succ n ih =>
    unfold whileFuel
    rw [hc, h s hs]
    cases c s <;> first | rfl | skip
    simp only [if_true]
    cases e : f s <;> first | rfl | skip
    exact ih _ (hP _ _ hs e)

end ZeroFloat

open Iterative in
/-- If no diagonal element is the negative zero, a fixed point solver takes the same number of iterations and returns the same values. -/
theorem c136_fixed (sqrt : Num binary64 → Num binary64) (k : Method) (s : FixedPoint Signed) (m : Sparse Signed)
    (hm : ∀ i a, m.get i i = .ok a → a ≠ minusZero) (x b : List Signed) (fuel : Nat) :
    solveSystem (floats binary64 sqrt) k (plainFixed s) (m.map Signed.val) (plainVec x) (plainVec b) fuel =
      (fun r : List Signed × Conv Signed Signed × FixedPoint Signed => (plainVec r.1, plainConv r.2.1, plainFixed r.2.2)) <$>
        solveSystem (signed64 sqrt) k s m x b fuel := by
  have hi : ∀ w, iterate (floats binary64 sqrt) k (plainFixed s) (m.map Signed.val) (plainVec b) fuel
      ((plainVec x, plainVec w), Iterative.Conv.new (floats binary64 sqrt)) =
      (fun st : (List Signed × List Signed) × Conv Signed Signed => (plainBoth st.1, plainConv st.2)) <$>
        iterate (signed64 sqrt) k s m b fuel ((x, w), Iterative.Conv.new (signed64 sqrt)) := by
    intro w
    unfold iterate
    refine while_hom (fun st : (List Signed × List Signed) × Conv Signed Signed => (plainBoth st.1, plainConv st.2)) (fun st => Started st.2)
      (fun st => rfl) (fun st hst => ?_) (fun st st' hst e => ?_) fuel ((x, w), Iterative.Conv.new (signed64 sqrt)) ⟨rfl, rfl⟩
    · exact bind_hom plainBoth _ (step_val sqrt hm k s b st.1) fun v _ =>
        bind_hom plainConv _ (update_val sqrt m v.1 b st.2 hst).1 fun d _ => rfl
    · simp only [Out.bind_eq_ok] at e
      obtain ⟨v, -, d, hd, e⟩ := e
      simp only [Out.pure_eq, Out.ok.injEq] at e
      subst e
      exact (update_val sqrt m v.1 b st.2 hst).2 d hd
  have hw : ∀ n, resizeList (plainVec s.working) n 0 = plainVec (resizeList s.working n 0) := fun n => resizeList_map Signed.val s.working n 0
  unfold solveSystem
  cases k
  · refine bind_hom (fun st : (List Signed × List Signed) × Conv Signed Signed => (plainBoth st.1, plainConv st.2)) _ ?_ fun _ _ => rfl
    show iterate _ _ _ _ _ _ ((plainVec x, resizeList (plainVec s.working) m.sizeRow 0), _) = _
    rw [hw]
    exact hi _
  · exact bind_hom (fun st : (List Signed × List Signed) × Conv Signed Signed => (plainBoth st.1, plainConv st.2)) _ (hi _) fun _ _ => rfl
  · exact bind_hom (fun st : (List Signed × List Signed) × Conv Signed Signed => (plainBoth st.1, plainConv st.2)) _ (hi _) fun _ _ => rfl

/-- The zeros of a solution have signs; the values are those of the system without signs. -/
example : (do
      let r ← factorise Signed.arith true ⟨false, of (Num.fin (1 / 1024)), [], []⟩ [[of (Num.fin 2), minusZero], [0, of (Num.fin (-4))]]
      let x ← Lu.solve true r.1 [] (some [of (Num.fin 6), 0])
      pure x.1) = .ok [of (Num.fin 3), minusZero] ∧
    (do
      let r ← factorise (Num.arith binary64) true ⟨false, Num.fin (1 / 1024), [], []⟩ [[Num.fin 2, 0], [0, Num.fin (-4)]]
      let x ← Lu.solve true r.1 [] (some [Num.fin 6, 0])
      pure x.1) = .ok [Num.fin 3, 0] := by
  constructor <;> decide +kernel

/-- A tolerance of zero accepts zeros of both signs, which give infinite solutions of different signs. -/
theorem c136_zero_tolerance (pivot : Bool) : (do
      let r ← factorise Signed.arith pivot ⟨false, 0, [], []⟩ [[0]]
      let x ← Lu.solve pivot r.1 [] (some [of (Num.fin 6)])
      pure (x.1, x.2.1)) = .ok ([⟨.inf false, false⟩], true) ∧
    (do
      let r ← factorise Signed.arith pivot ⟨false, 0, [], []⟩ [[minusZero]]
      let x ← Lu.solve pivot r.1 [] (some [of (Num.fin 6)])
      pure (x.1, x.2.1)) = .ok ([⟨.inf true, true⟩], true) := by
  cases pivot <;> constructor <;> decide +kernel

/-- The diagonal of a matrix with a negative zero elsewhere. -/
example : ∀ i a, (⟨[0, 2, 3], [0, 1, 1], [of (Num.fin 2), minusZero, of (Num.fin 4)], 2⟩ : Sparse Signed).get i i = .ok a → a ≠ minusZero := by
  intro i a h
  rcases i with _ | _ | i
  · rw [show (⟨[0, 2, 3], [0, 1, 1], [of (Num.fin 2), minusZero, of (Num.fin 4)], 2⟩ : Sparse Signed).get 0 0 = .ok (of (Num.fin 2)) by
      decide +kernel, Out.ok.injEq] at h
    subst h
    decide +kernel
  · rw [show (⟨[0, 2, 3], [0, 1, 1], [of (Num.fin 2), minusZero, of (Num.fin 4)], 2⟩ : Sparse Signed).get (0 + 1) (0 + 1) =
      .ok (of (Num.fin 4)) by decide +kernel, Out.ok.injEq] at h
    subst h
    decide +kernel
  · unfold Sparse.get at h
    rw [show decide (i + 1 + 1 < Sparse.sizeRow (⟨[0, 2, 3], [0, 1, 1], [of (Num.fin 2), minusZero, of (Num.fin 4)], 2⟩ : Sparse Signed)) =
      false from decide_eq_false (by show ¬ i + 1 + 1 < 2; omega)] at h
    cases h

open Iterative in
/-- Zeros of both signs on the diagonal give infinite solutions of different signs, with each of the three methods. -/
theorem c136_zero_diagonal (k : Method) : (do
      let x ← solveSystem (signed64 root64) k ⟨⟨1, 0, 0⟩, [], of (Num.fin 1)⟩ ⟨[0, 1], [0], [0], 1⟩ [0] [of (Num.fin 6)] 1
      pure (x.1.map Signed.val)) = .ok [.inf false] ∧
    (do
      let x ← solveSystem (signed64 root64) k ⟨⟨1, 0, 0⟩, [], of (Num.fin 1)⟩ ⟨[0, 1], [0], [minusZero], 1⟩ [0] [of (Num.fin 6)] 1
      pure (x.1.map Signed.val)) = .ok [.inf true] := by
  cases k <;> constructor <;> decide +kernel

end Disa.Props
