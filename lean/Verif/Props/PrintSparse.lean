import Verif.Sparse.Print
import Verif.Spec.Sparse
import Verif.Props.Print

/-!
# Property C138: printed sparse matrices
-/

namespace Disa.Props

open Disa Disa.Spec

variable {α : Type}

/-- The words, each followed by a blank. -/
def words {β : Type} (fmt : β → List Char) (l : List β) : List Char := l.flatMap fun x => fmt x ++ [' ']

theorem printLine_eq {β : Type} (fmt : β → List Char) (l : List β) (t : List Char) :
    Sparse.printLine fmt l t = t ++ words fmt l ++ ['\n'] := by
  have : ∀ t, l.foldl (fun t x => t ++ fmt x ++ [' ']) t = t ++ words fmt l := by
    unfold words
    induction l with
    | nil => simp
    | cons a l ih => intro t; rw [List.foldl_cons, ih, List.flatMap_cons]; simp only [List.append_assoc]
  rw [Sparse.printLine, this]

theorem words_inj {β : Type} {fmt : β → List Char} (hf : Function.Injective fmt) (hs : ∀ x, ' ' ∉ fmt x) {l l' : List β}
    (h : words fmt l = words fmt l') : l = l' := by
  induction l generalizing l' with
  | nil =>
    cases l' with
    | nil => rfl
    | cons b l' => simp [words] at h
  | cons a l ih =>
    cases l' with
    | nil => simp [words] at h
    | cons b l' =>
      have h' : fmt a ++ ' ' :: words fmt l = fmt b ++ ' ' :: words fmt l' := by simpa [words] using h
      obtain ⟨h1, h2⟩ := split_inj (hs a) (hs b) h'
      rw [hf h1, ih h2]

theorem words_line {β : Type} {fmt : β → List Char} (hn : ∀ x, '\n' ∉ fmt x) (l : List β) : '\n' ∉ words fmt l := by
  simp [words, hn]

/-- C138: printing appends three lines with the offsets, the columns and the elements. -/
theorem c138_text (fmt : α → List Char) (m : Sparse α) (t : List Char) :
    m.print fmt t = t ++ ['\n'] ++ words dec m.off ++ ['\n'] ++ words dec m.cols ++ ['\n'] ++ words fmt m.vals ++ ['\n'] := by
  simp [Sparse.print, printLine_eq]

/-- The full C138: whenever the elements are written in such a way that their texts determine them, the printed text determines the
matrix.  It is false, see `c138_violated`. -/
def C138 : Prop := ∀ (fmt : Rat → List Char), Function.Injective fmt → (∀ x, ' ' ∉ fmt x ∧ '\n' ∉ fmt x) →
  ∀ m m' : Sparse Rat, Built false m → Built false m' → m.print fmt [] = m'.print fmt [] → m = m'

/-- A way to write rational numbers. -/
def fraction (x : Rat) : List Char := (if x.num < 0 then ['-'] else []) ++ dec x.num.natAbs ++ ['/'] ++ dec x.den

theorem fraction_inj : Function.Injective fraction := by
  intro x y h
  have hslash : ∀ z : Rat, '/' ∉ (if z.num < 0 then ['-'] else []) ++ dec z.num.natAbs := by
    intro z
    have : '/' ∉ dec z.num.natAbs := dec_notMem (by decide)
    split <;> simp [this]
  obtain ⟨h1, h2⟩ := split_inj (hslash x) (hslash y) (by simpa [fraction] using h)
  have hminus : ∀ z : Rat, '-' ∉ dec z.num.natAbs := fun z => dec_notMem (by decide)
  have hnum : x.num = y.num := by
    split at h1 <;> split at h1
    · have := dec_inj (List.append_cancel_left h1); omega
    · exact absurd (by rw [List.nil_append] at h1; rw [← h1]; simp) (hminus y)
    · exact absurd (by rw [List.nil_append] at h1; rw [h1]; simp) (hminus x)
    · have := dec_inj (List.append_cancel_left h1); omega
  exact Rat.ext hnum (dec_inj h2)

theorem fraction_plain (x : Rat) : ' ' ∉ fraction x ∧ '\n' ∉ fraction x := by
  have h1 : ∀ n, ' ' ∉ dec n := fun n => dec_notMem (by decide)
  have h2 : ∀ n, '\n' ∉ dec n := fun n => dec_notMem (by decide)
  constructor <;> unfold fraction <;> split <;> simp [h1, h2]

/-- C138: matrices that differ only in the number of columns are printed alike, however elements are written. -/
theorem c138_columns (fmt : α → List Char) (m : Sparse α) (c : Nat) (t : List Char) :
    ({ m with colSize := c } : Sparse α).print fmt t = m.print fmt t := rfl

/-- C138 does not hold: two matrices without elements, with one column and with two. -/
theorem c138_violated : ¬ C138 := by
  intro h
  have := h fraction fraction_inj fraction_plain (Sparse.sized 1 1) (Sparse.sized 1 2) (.sized (by decide)) (.sized (by decide)) rfl
  revert this
  decide

/-- C138, up to the number of columns.  Missing from the full statement: the number of columns is not printed. -/
theorem c138_partial (fmt : α → List Char) (hf : Function.Injective fmt) (hs : ∀ x, ' ' ∉ fmt x ∧ '\n' ∉ fmt x) (m m' : Sparse α)
    (h : m.print fmt [] = m'.print fmt []) : m' = { m with colSize := m'.colSize } := by
  rw [c138_text, c138_text] at h
  have hd : Function.Injective dec := fun _ _ => dec_inj
  have hd1 : ∀ x, ' ' ∉ dec x := fun x => dec_notMem (by decide)
  have hd2 : ∀ x, '\n' ∉ dec x := fun x => dec_notMem (by decide)
  simp only [List.nil_append, List.append_assoc, List.cons_append, List.cons.injEq, true_and] at h
  obtain ⟨h1, h⟩ := split_inj (words_line hd2 _) (words_line hd2 _) h
  obtain ⟨h2, h⟩ := split_inj (words_line hd2 _) (words_line hd2 _) h
  obtain ⟨h3, _⟩ := split_inj (words_line (fun x => (hs x).2) _) (words_line (fun x => (hs x).2) _) h
  have e1 := words_inj hd hd1 h1
  have e2 := words_inj hd hd1 h2
  have e3 := words_inj hf (fun x => (hs x).1) h3
  cases m; cases m'
  simp_all

example : (⟨[0, 1, 2], [1, 0], [1, -2], 2⟩ : Sparse Rat).print fraction [] = "\n0 1 2 \n1 0 \n1/1 -2/1 \n".toList := by decide +kernel

end Disa.Props
