import Verif.Sparse.Lists
import Verif.Spec.Sparse

/-!
# Invariants of all matrices that can be built
-/

namespace Disa
namespace Sparse

open Spec

variable {α : Type} {m : Sparse α} {L : Rows α}

theorem bounded_entry {c : Nat} : Bounded c L ↔ ∀ i j, entry L i j ≠ none → j < c := by
  rw [bounded_iff]
  exact ⟨fun h i j hj => h i j (mem_keys_iff.mpr hj), fun h i j hj => h i j (mem_keys_iff.mp hj)⟩

theorem bounded_mono {c d : Nat} (h : Bounded c L) (hcd : c ≤ d) : Bounded d L :=
  fun i x hx => Nat.lt_of_lt_of_le (h i x hx) hcd

/-- What every matrix satisfies. -/
def Inv (z : Bool) (m : Sparse α) (L : Rows α) : Prop :=
  m.Rep L ∧ Sorted L ∧ Bounded sizeMax L ∧ (z = false → Bounded m.colSize L)

theorem rep_sized {r : Nat} (hr : r < sizeMax) (c : Nat) : (sized r c : Sparse α).Rep (List.replicate r []) := by
  have hw : wrap (r + 1) = r + 1 := by unfold wrap; unfold sizeMax at hr; exact Nat.mod_eq_of_lt (by omega)
  have hp : ∀ i, psum (List.replicate r ([] : List (Nat × α))) i = 0 := by
    intro i; unfold psum; rw [List.take_replicate, List.flatten_replicate_nil]; rfl
  refine ⟨.inl ?_, by simp [sized], by simp [sized], by simpa using hr⟩
  rw [offs_eq_iff]
  refine ⟨by simp [sized, hw], ?_⟩
  intro i hi
  rw [hp]
  have : i < r + 1 := by simp at hi; omega
  simp [sized, hw, this]

theorem locate {β : Type} (L : List (List β)) {p : Nat} (hp : p < L.flatten.length) :
    ∃ i k, ∃ hi : i < L.length, k < L[i].length ∧ p = psum L i + k := by
  classical
  have hex : ∃ n, p < psum L n := ⟨L.length, by rw [psum_length]; exact hp⟩
  have hn := Nat.find_spec hex
  have hmin := fun k => Nat.find_min (m := k) hex
  generalize Nat.find hex = n at hn hmin
  cases n with
  | zero => simp at hn
  | succ i =>
    have h1 := hmin i (by omega)
    have hi : i < L.length := by
      by_contra hc
      rw [psum_of_ge L (by omega)] at hn h1
      exact h1 hn
    have h2 := psum_succ L hi
    exact ⟨i, p - psum L i, hi, by omega, by omega⟩

theorem Rep.write (h : m.Rep L) {it : Iter} {v : α} {m' : Sparse α} (hw : m.setAt it v = .ok m') :
    ∃ L', m'.Rep L' ∧ m'.colSize = m.colSize ∧ L'.length = L.length ∧ ∀ i, keys (row L' i) = keys (row L i) := by
  have hp : it.2 < L.flatten.length := by
    by_contra hc
    unfold Sparse.setAt at hw
    rw [wr_ub] at hw
    · simp at hw
    · rw [h.vals, List.length_map]; omega
  obtain ⟨i, k, hi, hk, he⟩ := locate L hp
  have hit : it = (it.1, psum L i + k) := by rw [← he]
  obtain ⟨m1, h1, h2, h3⟩ := h.setAt (a := it.1) hi hk v
  rw [hit, h1, Out.ok.injEq] at hw
  subst hw
  refine ⟨_, h3, h2, by simp, ?_⟩
  intro a
  rw [row_set hi]
  split
  · rename_i ha
    subst ha
    rw [row_of_lt hi]
    unfold keys
    rw [List.map_set]
    apply List.ext_getElem?
    intro n
    rw [List.getElem?_set]
    split
    · rename_i hn; subst hn; simp [hk]
    · rfl
  · rfl

theorem Rep.mapVals (h : m.Rep L) (f : α → α) :
    ({ m with vals := m.vals.map f } : Sparse α).Rep (L.map fun r => r.map fun x => (x.1, f x.2)) := by
  refine ⟨?_, ?_, ?_, by simpa using h.small⟩
  · rcases h.offs with h' | ⟨rfl, h'⟩
    · left
      show m.off = _
      rw [h']
      unfold Disa.offs
      rw [List.length_map]
      apply List.map_congr_left
      intro i _
      rw [psum_map_map]
    · right; exact ⟨rfl, h'⟩
  · show m.cols = _
    rw [h.cols, ← List.map_flatten, List.map_map]; rfl
  · show m.vals.map f = _
    rw [h.vals, ← List.map_flatten, List.map_map, List.map_map]; rfl

theorem entry_mapVals (f : α → α) (i j : Nat) :
    entry (L.map fun r => r.map fun x => (x.1, f x.2)) i j = (entry L i j).map f := by
  unfold entry
  rw [row_map _ (by rfl)]
  exact lookup_map_snd f _ j

theorem keys_mapVals (f : α → α) (i : Nat) : keys (row (L.map fun r => r.map fun x => (x.1, f x.2)) i) = keys (row L i) := by
  rw [row_map _ (by rfl)]
  simp [keys]

theorem inv_of_keys {z : Bool} {m' : Sparse α} {L' : Rows α} (h : Inv z m L) (hr : m'.Rep L') (hc : m'.colSize = m.colSize)
    (hk : ∀ i, keys (row L' i) = keys (row L i)) : Inv z m' L' := by
  refine ⟨hr, fun i => by rw [hk]; exact h.2.1 i, ?_, fun hz => ?_⟩
  · rw [bounded_iff]; intro i k hk'; rw [hk] at hk'; exact bounded_iff.mp h.2.2.1 i k hk'
  · rw [bounded_iff]; intro i k hk'; rw [hk] at hk'; rw [hc]; exact bounded_iff.mp (h.2.2.2 hz) i k hk'

theorem eraseAt_ok (h : m.Rep L) (hs : Sorted L) {i j : Nat} (hi : i < L.length) (hj : j ∈ keys (row L i)) :
    ∃ m', eraseAt m i j = .ok m' ∧ m'.Rep (L.set i (delRow j (row L i))) ∧ m'.colSize = m.colSize := by
  rw [row_of_lt hi] at hj ⊢
  have hk : (keys L[i]).idxOf j < L[i].length := by
    have := List.idxOf_lt_length_of_mem hj
    simpa [keys] using this
  obtain ⟨m', h1, h2, h3⟩ := h.erase hi hk
  unfold eraseAt
  simp only [h.find hi, Out.ok_bind, h1]
  have hr := hs i
  rw [row_of_lt hi] at hr
  rw [cut_eq_delRow hr hk] at h2
  have hg : L[i][(keys L[i]).idxOf j].1 = j := by
    have := List.getElem_idxOf (xs := keys L[i]) (x := j) (List.idxOf_lt_length_of_mem hj)
    rwa [List.getElem_map] at this
  rw [hg] at h2
  exact ⟨m', rfl, h2, h3⟩

theorem entry_del (hi : i < L.length) (j a b : Nat) :
    entry (L.set i (delRow j (row L i))) a b = if a = i ∧ b = j then none else entry L a b := by
  unfold entry
  rw [row_set hi]
  by_cases ha : a = i
  · subst ha
    rw [if_pos rfl, lookup_delRow]
    by_cases hb : b = j <;> simp [hb]
  · simp [ha]

theorem sorted_del (hs : Sorted L) (hi : i < L.length) (j : Nat) : Sorted (L.set i (delRow j (row L i))) := by
  intro a
  rw [row_set hi]
  split
  · exact List.Pairwise.sublist (List.Sublist.map _ List.filter_sublist) (hs i)
  · exact hs a

theorem eraseAt_row (h : m.Rep L) {i j : Nat} {m' : Sparse α} (he : eraseAt m i j = .ok m') :
    i < L.length ∧ j ∈ keys (row L i) := by
  unfold eraseAt at he
  have hi : i < L.length := by
    by_contra hc
    rw [h.find_ub (by omega)] at he
    simp at he
  refine ⟨hi, ?_⟩
  rw [row_of_lt hi]
  by_contra hj
  rw [h.find hi, Out.ok_bind] at he
  have hp := psum_succ L hi
  have hlen : (keys L[i]).idxOf j = L[i].length := by
    rw [List.idxOf_eq_length hj]; simp [keys]
  rw [hlen] at he
  unfold Sparse.erase at he
  have hne : i ≠ L.length := by omega
  simp only [h.sizeRow, Bool.false_or, beq_eq_false_iff_ne.mpr hne, Bool.false_eq_true, if_false, Out.pure_eq, Out.ok_bind, if_true,
    hi, decide_true, assert_true, h.rowEnd hi, ← hp, bne_self_eq_false] at he
  simp only [assert, Bool.false_eq_true, if_false] at he
  cases hc : m.colAt (i, psum L (i + 1)) <;> rw [hc] at he <;> simp at he

theorem inv_built [Zero α] [Add α] [Neg α] [Mul α] [Div α] {z : Bool} (h : Built z m) : ∃ L, Inv z m L := by
  induction h with
  | new => exact ⟨[], rep_new, fun i => by simp [row], fun i x hx => by simp [row] at hx, fun _ i x hx => by simp [row] at hx⟩
  | sized hr =>
    exact ⟨_, rep_sized hr _, fun i => by rw [row_replicate_nil]; exact List.Pairwise.nil, bounded_replicate _ _,
      fun _ => bounded_replicate _ _⟩
  | @ofLists nz ix vs c m hn hc ho =>
    have hne : nz ≠ [] := by
      rintro rfl
      simp [Sparse.ofLists, rd] at ho
    obtain ⟨h1, h2⟩ := ofLists_spec (index := ix) (value := vs) hne hn c
    by_cases hg : GoodLists nz ix vs ∧ ∀ r ∈ rawRows nz (ix.zip vs), GoodRow c r
    · obtain ⟨m', h3, h4, h5⟩ := h1 hg
      rw [h3, Out.ok.injEq] at ho
      subst ho
      have hmem : ∀ i, row (rawRows nz (ix.zip vs)) i = [] ∨ row (rawRows nz (ix.zip vs)) i ∈ rawRows nz (ix.zip vs) := by
        intro i
        by_cases hi : i < (rawRows nz (ix.zip vs)).length
        · right; rw [row_of_lt hi]; exact List.getElem_mem hi
        · left; exact row_of_ge (by omega)
      have hgood : ∀ i, GoodRow c (row (rawRows nz (ix.zip vs)) i) := by
        intro i
        rcases hmem i with h | h
        · rw [h]; exact ⟨by simp, by simp⟩
        · exact hg.2 _ h
      have hb : Bounded c ((rawRows nz (ix.zip vs)).map sortRow) := by
        intro i x hx
        rw [row_map _ (by rfl)] at hx
        exact (hgood i).1 x ((sortRow_perm _).mem_iff.mp hx)
      refine ⟨_, h4, ?_, bounded_mono hb hc, fun _ => by rw [h5]; exact hb⟩
      intro i
      rw [row_map _ (by rfl)]
      exact sortRow_lt (hgood i)
    · rw [h2 hg] at ho; simp at ho
  | @insert m m' i j v it b _ hi hj he ih =>
    obtain ⟨L, h1, h2, h3, h4⟩ := ih
    obtain ⟨m1, b', h5, h6, h7, _⟩ := h1.insert h2 hi hj v
    rw [h5, Out.ok.injEq, Prod.mk.injEq] at he
    obtain ⟨rfl, _⟩ := he
    refine ⟨_, h6, sorted_insRows h2 _ _ _, ?_, fun hz => ?_⟩
    · rw [bounded_entry] at h3 ⊢
      intro a c hc
      rw [entry_insRows h2] at hc
      split at hc
      · omega
      · exact h3 a c hc
    · have h4 := h4 hz
      rw [bounded_entry] at h4 ⊢
      intro a c hc
      rw [entry_insRows h2] at hc
      rw [h7]
      split at hc
      · omega
      · have := h4 a c hc; omega
  | @insertOrAssign m m' i j v it b _ hi hj he ih =>
    obtain ⟨L, h1, h2, h3, h4⟩ := ih
    obtain ⟨m1, it', b', h5, h6, h7, _⟩ := h1.insertOrAssign h2 hi hj v
    rw [h5, Out.ok.injEq, Prod.mk.injEq] at he
    obtain ⟨rfl, _⟩ := he
    refine ⟨_, h6, sorted_putRows h2 _ _ _, ?_, fun hz => ?_⟩
    · rw [bounded_entry] at h3 ⊢
      intro a c hc
      rw [entry_putRows h2] at hc
      split at hc
      · omega
      · exact h3 a c hc
    · have h4 := h4 hz
      rw [bounded_entry] at h4 ⊢
      intro a c hc
      rw [entry_putRows h2] at hc
      rw [h7]
      split at hc
      · omega
      · have := h4 a c hc; omega
  | @erase m m' i j _ he ih =>
    obtain ⟨L, h1, h2, h3, h4⟩ := ih
    obtain ⟨hi, hj⟩ := eraseAt_row h1 he
    obtain ⟨m1, h5, h6, h7⟩ := eraseAt_ok h1 h2 hi hj
    rw [h5, Out.ok.injEq] at he
    subst he
    have key : ∀ c, Bounded c L → Bounded c (L.set i (delRow j (row L i))) := by
      intro c hc
      rw [bounded_entry] at hc ⊢
      intro a b hb
      rw [entry_del hi] at hb
      split at hb
      · exact absurd rfl hb
      · exact hc a b hb
    exact ⟨_, h6, sorted_del h2 hi j, key _ h3, fun hz => by rw [h7]; exact key _ (h4 hz)⟩
  | @resize m m' r c _ hr hc he ih =>
    obtain ⟨L, h1, h2, h3, h4⟩ := ih
    obtain ⟨m1, h5, h6, h7⟩ := h1.resize h2 c hr
    rw [h5, Out.ok.injEq] at he
    subst he
    refine ⟨_, h7, sorted_resRows h2 _ _ _, ?_, fun hz => ?_⟩
    · rw [bounded_entry] at h3 ⊢
      intro a b hb
      rw [entry_resRows] at hb
      split at hb
      · exact h3 a b hb
      · exact absurd rfl hb
    · have h4 := h4 hz
      rw [h6, bounded_entry]
      intro a b hb
      rw [entry_resRows] at hb
      split at hb
      · rename_i hab
        by_cases hcs : c < m.colSize
        · rcases hc with hc | hc | hc
          · rw [hz] at hc; cases hc
          · have := hab.2 hcs
            rw [usub_of_le (by omega)] at this; omega
          · exfalso
            rw [← mem_keys_iff] at hb
            have hl : L.flatten.length = 0 := by
              have := congrArg List.length h1.cols
              rw [List.length_map] at this
              unfold Sparse.sizeNonZero at hc
              omega
            have hlt := lt_of_key hb
            have := flatten_length_psum L hlt
            have hnil : row L a = [] := List.eq_nil_of_length_eq_zero (by omega)
            rw [hnil] at hb; simp at hb
        · have := bounded_entry.mp h4 a b hb; omega
      · exact absurd rfl hb
  | clear =>
    exact ⟨[], ⟨.inr ⟨rfl, rfl⟩, rfl, rfl, by simp [sizeMax]⟩, fun i => by simp [row], fun i x hx => by simp [row] at hx,
      fun _ i x hx => by simp [row] at hx⟩
  | @ref m m' i j it _ hj he ih =>
    obtain ⟨L, h1, h2, h3, h4⟩ := ih
    have hi : i < L.length := by
      by_contra hc
      unfold Sparse.ref at he
      have : ¬ i < m.sizeRow := by rw [h1.sizeRow]; exact hc
      simp [assert, this] at he
    obtain ⟨m1, w, h5, h6, h7, _⟩ := h1.ref h2 hi hj
    rw [h5, Out.ok.injEq, Prod.mk.injEq] at he
    obtain ⟨rfl, _⟩ := he
    refine ⟨_, h6, sorted_insRows h2 _ _ _, ?_, fun hz => ?_⟩
    · rw [bounded_entry] at h3 ⊢
      intro a c hc
      rw [entry_insRows h2] at hc
      split at hc
      · omega
      · exact h3 a c hc
    · have h4 := h4 hz
      rw [bounded_entry] at h4 ⊢
      intro a c hc
      rw [entry_insRows h2] at hc
      rw [h7]
      split at hc
      · rename_i hh
        rw [if_neg (by rw [mem_keys_iff, hh.2.2]; simp)]; omega
      · have := h4 a c hc
        split <;> omega
  | write _ he ih =>
    obtain ⟨L, h⟩ := ih
    obtain ⟨L', h1, h2, _, h3⟩ := h.1.write he
    exact ⟨L', inv_of_keys h h1 h2 h3⟩
  | @scale m a _ ih =>
    obtain ⟨L, h⟩ := ih
    exact ⟨_, inv_of_keys h (h.1.mapVals (· * a)) rfl (keys_mapVals (· * a))⟩
  | @unscale m a _ ih =>
    obtain ⟨L, h⟩ := ih
    exact ⟨_, inv_of_keys h (h.1.mapVals (· / a)) rfl (keys_mapVals (· / a))⟩
  | @arith m o m' isAdd _ _ he ih1 ih2 =>
    obtain ⟨L, h1, h2, h3, h4⟩ := ih1
    obtain ⟨M, k1, k2, k3, k4⟩ := ih2
    have hsz : L.length = M.length ∧ m.colSize = o.colSize := by
      by_contra hc
      unfold Sparse.arith at he
      have : (m.sizeRow == o.sizeRow && m.colSize == o.colSize) = false := by
        rw [h1.sizeRow, k1.sizeRow]
        simpa [Bool.and_eq_false_iff, beq_eq_false_iff_ne, not_and_or] using hc
      simp only [operand, Option.getD_some, this] at he
      simp [assert] at he
    obtain ⟨m1, h5, h6, h7⟩ := h1.arith h2 k1 k2 k3 hsz.1 hsz.2 isAdd
    rw [h5, Out.ok.injEq] at he
    subst he
    refine ⟨_, h6, sorted_arithRows _ h2 k2, bounded_arithRows _ h3 k3, fun hz => ?_⟩
    rw [h7 (k4 hz)]
    exact bounded_arithRows _ (h4 hz) (hsz.2 ▸ k4 hz)
  | @arithSelf m m' isAdd _ he ih =>
    obtain ⟨L, h⟩ := ih
    obtain ⟨m1, h5, h6, h7⟩ := h.1.arith_self isAdd
    rw [h5, Out.ok.injEq] at he
    subst he
    exact ⟨_, inv_of_keys h h6 h7 (keys_selfRows isAdd)⟩
  | @mul m o m' _ _ he ih1 ih2 =>
    obtain ⟨L, h1, h2, h3, h4⟩ := ih1
    obtain ⟨M, k1, k2, k3, k4⟩ := ih2
    have hsz : m.colSize = M.length := by
      by_contra hc
      unfold Sparse.mul at he
      have : (m.colSize == o.sizeRow) = false := by rw [k1.sizeRow]; simpa using hc
      simp only [operand, Option.getD_some, this] at he
      simp [assert] at he
    cases z with
    | true =>
      rcases h1.mul_or_ub h3 k1 k3 hsz with h | ⟨m1, h, N, h5, h6, h7, h8⟩
      · rw [h] at he; simp at he
      · rw [h, Out.ok.injEq] at he
        subst he
        exact ⟨N, h5, h6, h8, by simp⟩
    | false =>
      obtain ⟨m1, h5, h6⟩ := h1.mul k1 k3 (by rw [← hsz]; exact h4 rfl) hsz
      rw [h5, Out.ok.injEq] at he
      subst he
      have hb : ∀ c, Bounded c M → Bounded c ((terms L M).foldl accRows (List.replicate L.length [])) := by
        intro c hc
        rw [bounded_entry]
        intro i j hij
        rw [entry_terms k2] at hij
        have : prods L M i j ≠ [] := by intro h; rw [h] at hij; exact hij rfl
        obtain ⟨w, hw⟩ := List.exists_mem_of_ne_nil _ this
        unfold prods at hw
        obtain ⟨x, hx, hw⟩ := List.mem_filterMap.mp hw
        refine bounded_entry.mp hc x.1 j ?_
        intro h; rw [h] at hw; simp at hw
      exact ⟨_, h6.rep, h6.sorted, hb _ k3, fun _ => by rw [h6.col (k4 rfl)]; exact hb _ (k4 rfl)⟩
  | @mulSelf m m' _ he ih =>
    obtain ⟨L, h1, h2, h3, h4⟩ := ih
    have hsz : m.colSize = L.length := by
      by_contra hc
      unfold Sparse.mul at he
      have : (m.colSize == m.sizeRow) = false := by rw [h1.sizeRow]; simpa using hc
      simp only [operand, Option.getD_none, this] at he
      simp [assert] at he
    cases z with
    | true =>
      rcases h1.mul_self_or_ub h3 hsz with h | ⟨m1, h, N, h5, h6, h7, h8⟩
      · rw [h] at he; simp at he
      · rw [h, Out.ok.injEq] at he
        subst he
        exact ⟨N, h5, h6, h8, by simp⟩
    | false =>
      obtain ⟨m1, h5, h6, h7⟩ := h1.mul_self (by rw [← hsz]; exact h4 rfl) hsz
      rw [h5, Out.ok.injEq] at he
      subst he
      exact ⟨_, h6, fun i => by rw [row_replicate_nil]; exact List.Pairwise.nil, bounded_replicate _ _,
        fun _ => bounded_replicate _ _⟩

/-! ### What a caller sees -/

theorem lookup_ok (h : m.Rep L) {i : Nat} (hi : i < L.length) (j : Nat) :
    Spec.lookup m i j = .ok (entry L i j) := by
  unfold Spec.lookup
  simp only [h.contains hi, Out.ok_bind, decide_eq_true_eq]
  by_cases hj : j ∈ keys L[i]
  · rw [if_pos hj]
    have hk : (keys L[i]).idxOf j < L[i].length := by
      have := List.idxOf_lt_length_of_mem hj
      simpa [keys] using this
    simp only [h.find hi, Out.ok_bind, h.valAt hi hk, Out.pure_eq]
    unfold entry
    obtain ⟨_, he⟩ := lookup_idxOf hj
    rw [row_of_lt hi, he]
  · rw [if_neg hj]
    have : entry L i j = none := by
      unfold entry; rw [row_of_lt hi, lookup_eq_none]; exact hj
    rw [this]; rfl

theorem mapOut_list {β γ : Type} {f : β → Out γ} {l : List β} {ys : List γ} (hl : l.length = ys.length)
    (h : ∀ k (hk : k < l.length) (hk' : k < ys.length), f l[k] = .ok ys[k]) : mapOut f l = .ok ys := by
  induction l generalizing ys with
  | nil =>
    cases ys with
    | nil => rfl
    | cons y ys => simp at hl
  | cons x l ih =>
    cases ys with
    | nil => simp at hl
    | cons y ys =>
      have h0 := h 0 (by simp) (by simp)
      have := ih (ys := ys) (by simpa using hl) (fun k hk hk' => h (k + 1) (Nat.succ_lt_succ hk) (Nat.succ_lt_succ hk'))
      simp only [List.getElem_cons_zero] at h0
      simp only [mapOut, h0, this, Out.ok_bind, Out.pure_eq]

theorem elements_ok (h : m.Rep L) {i : Nat} (hi : i < L.length) : elements m i = .ok (row L i) := by
  unfold elements
  have hp := psum_succ L hi
  simp only [h.rowBegin hi, h.rowEnd hi, Out.ok_bind]
  have he : psum L (i + 1) - psum L i = L[i].length := by omega
  rw [he]
  rw [row_of_lt hi]
  refine mapOut_list (by simp) ?_
  intro k hk1 hk
  rw [List.getElem_range]
  simp only [h.colAt hi hk, h.valAt hi hk, Out.ok_bind, Out.pure_eq]

end Sparse
end Disa
