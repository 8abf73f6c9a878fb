import Verif.Scalar.Float

/-!
# Rounded arithmetic with fused operations

The build sets no `-ffp-contract`, so that on targets with a fused multiply-add the compiler may contract `s + a * b` and
`s - a * b`, also across statements: the product is then not rounded.  The models are used with `Fused rnd fuse`, where a
product is kept until it is used, and `fuse` says of each sum whether it is fused.  A number knows how it was computed, and
`fuse` gets this history, so that any two operations may be treated differently.  A product on the left of a sum is always
rounded; the functions that are used with these numbers have none.
-/

namespace Disa

/-- How a number was computed: an input with a label, or an operation on two numbers. -/
inductive Hist where
  | input (label : Nat)
  | op (name : Nat) (l r : Hist)

/-- Floating point numbers with the rounding `rnd`, or a product that was not used yet. -/
inductive Fused (rnd : ℚ → Fl) (fuse : Hist → Hist → Hist → Bool) where
  | num (x : Fl) (h : Hist)
  | prod (a b : Fl) (h k : Hist)

namespace Fused
variable {rnd : ℚ → Fl} {fuse : Hist → Hist → Hist → Bool}

/-- The number, if it is stored: a product is rounded. -/
def get : Fused rnd fuse → Fl
  | num x _ => x
  | prod a b _ _ => Fl.mul rnd a b

/-- How the number was computed. -/
def hist : Fused rnd fuse → Hist
  | num _ h => h
  | prod _ _ h k => .op 2 h k

/-- The second operand of a sum, where `h` is the history of the first: a fused product is not rounded. -/
def operand (h : Hist) : Fused rnd fuse → Fl
  | num x _ => x
  | prod a b k l => Fl.mul (if fuse h k l then .fin else rnd) a b

instance : Zero (Fused rnd fuse) := ⟨num (.fin 0) (.input 0)⟩
instance : Add (Fused rnd fuse) := ⟨fun x y => num (Fl.add rnd x.get (y.operand x.hist)) (.op 0 x.hist y.hist)⟩
instance : Sub (Fused rnd fuse) := ⟨fun x y => num (Fl.sub rnd x.get (y.operand x.hist)) (.op 1 x.hist y.hist)⟩
instance : Mul (Fused rnd fuse) := ⟨fun x y => prod x.get y.get x.hist y.hist⟩
instance : Div (Fused rnd fuse) := ⟨fun x y => num (Fl.div rnd x.get y.get) (.op 3 x.hist y.hist)⟩
instance : Neg (Fused rnd fuse) := ⟨fun x => num (Fl.neg x.get) (.op 5 x.hist x.hist)⟩

/-- The comparisons and constants.  No sum has a product as operand there. -/
def arith (rnd : ℚ → Fl) (fuse : Hist → Hist → Hist → Bool) : Arith (Fused rnd fuse) where
  lt x y := Fl.lt x.get y.get
  le x y := Fl.le x.get y.get
  eq x y := Fl.eq x.get y.get
  add x y := num (Fl.add rnd x.get y.get) (.op 0 x.hist y.hist)
  sub x y := num (Fl.sub rnd x.get y.get) (.op 1 x.hist y.hist)
  mul x y := num (Fl.mul rnd x.get y.get) (.op 2 x.hist y.hist)
  abs x := num (Fl.abs x.get) (.op 4 x.hist x.hist)
  eps := num (Fl.arith rnd).eps (.input 0)
  one := num (Fl.arith rnd).one (.input 0)
  max := num (Fl.arith rnd).max (.input 0)
  rel := num (Fl.arith rnd).rel (.input 0)
  tol := num (Fl.arith rnd).tol (.input 0)

/-- The value of a finite number. -/
def val (x : Fused rnd fuse) : ℚ := Num.val (rnd := rnd) x.get

/-- The number is finite. -/
def IsFin (x : Fused rnd fuse) : Prop := x.get = .fin x.val

theorem isFin_of {x : Fused rnd fuse} {q : ℚ} (h : x.get = .fin q) : x.IsFin ∧ x.val = q := by
  have : x.val = q := by unfold val; rw [h]; rfl
  exact ⟨by unfold IsFin; rw [this]; exact h, this⟩

/-- A product that is used is near to the exact one. -/
theorem operand_mul {u η : ℚ} (hR : Rounds rnd u η) {h : Hist} {a b : Fused rnd fuse} {p : ℚ} (hp : (a * b).operand h = .fin p) :
    a.IsFin ∧ b.IsFin ∧ |p - a.val * b.val| ≤ u * |a.val * b.val| + η := by
  have hp' : Fl.mul (if fuse h a.hist b.hist then .fin else rnd) a.get b.get = .fin p := hp
  obtain ⟨x, y, h1, h2, h3⟩ := Num.mul_fin (rnd := if fuse h a.hist b.hist then .fin else rnd) (a := a.get) (b := b.get) hp'
  obtain ⟨f1, v1⟩ := isFin_of h1
  obtain ⟨f2, v2⟩ := isFin_of h2
  refine ⟨f1, f2, ?_⟩
  rw [v1, v2]
  split at h3
  · cases h3
    have := hR.u_nonneg
    have := hR.η_nonneg
    rw [sub_self, abs_zero]
    positivity
  · exact hR.error _ _ h3

theorem add_mul_fin {u η : ℚ} (hR : Rounds rnd u η) {s a b : Fused rnd fuse} (h : (s + a * b).IsFin) :
    s.IsFin ∧ a.IsFin ∧ b.IsFin ∧ ∃ p, |p - a.val * b.val| ≤ u * |a.val * b.val| + η ∧
      rnd (s.val + p) = .fin (s + a * b).val := by
  have h' : Fl.add rnd s.get ((a * b).operand s.hist) = .fin (s + a * b).val := h
  obtain ⟨x, p, h1, h2, h3⟩ := Num.add_fin (rnd := rnd) (a := s.get) (b := (a * b).operand s.hist) h'
  obtain ⟨f1, v1⟩ := isFin_of h1
  obtain ⟨f2, f3, e⟩ := operand_mul hR h2
  exact ⟨f1, f2, f3, p, e, by rw [v1]; exact h3⟩

theorem sub_mul_fin {u η : ℚ} (hR : Rounds rnd u η) {s a b : Fused rnd fuse} (h : (s - a * b).IsFin) :
    s.IsFin ∧ a.IsFin ∧ b.IsFin ∧ ∃ p, |p - a.val * b.val| ≤ u * |a.val * b.val| + η ∧
      rnd (s.val - p) = .fin (s - a * b).val := by
  have h' : Fl.sub rnd s.get ((a * b).operand s.hist) = .fin (s - a * b).val := h
  obtain ⟨x, p, h1, h2, h3⟩ := Num.sub_fin (rnd := rnd) (a := s.get) (b := (a * b).operand s.hist) h'
  obtain ⟨f1, v1⟩ := isFin_of h1
  obtain ⟨f2, f3, e⟩ := operand_mul hR h2
  exact ⟨f1, f2, f3, p, e, by rw [v1]; exact h3⟩

theorem div_isFin {a b : Fused rnd fuse} (hb : b.IsFin) (hd : b.val ≠ 0) (h : (a / b).IsFin) :
    a.IsFin ∧ rnd (a.val / b.val) = .fin (a / b).val := by
  have h' : Fl.div rnd a.get b.get = .fin (a / b).val := h
  rw [hb] at h'
  obtain ⟨x, h1, h2⟩ := Num.div_fin (rnd := rnd) (a := a.get) hd h'
  obtain ⟨f1, v1⟩ := isFin_of h1
  exact ⟨f1, by rw [v1]; exact h2⟩

end Fused
end Disa
