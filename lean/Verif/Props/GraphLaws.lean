import Verif.Props.Renumber
import Mathlib.Data.List.Perm.Basic

/-!
# Property C149: how the changes of a graph compose
-/

namespace Disa.Props

open Disa Spec Graph

theorem resize_reach {d : Bool} {g : Graph} (h : Reachable d g) {n : Nat} (hn : n < sizeMax) :
    ∃ g', g.resize false n = .ok g' ∧ Reachable d g' ∧ g'.sizeVertex = n ∧ ∀ u v, Adj g' u v ↔ u < n ∧ v < n ∧ Adj g u v := by
  obtain ⟨g', h1, h2, h3⟩ := c06_resize d g h hn
  exact ⟨g', h1, Graph.Reachable.step h (op := .resize n) hn h1, h2, h3⟩

theorem resize_zero {d : Bool} {g : Graph} (h : Reachable d g) : g.resize false 0 = .ok ⟨[], [0]⟩ := by
  obtain ⟨L, h1, -⟩ := reach_rep h
  obtain ⟨e1, -⟩ := resize_setup h1 (Nat.zero_le L.length)
  have e1' : resizeList g.off (0 + 1) 0 = [0] := by rw [e1]; rfl
  unfold Graph.resize
  rw [if_neg (by omega)]
  simp only [e1']
  simp [rd, Graph.sizeVertex, loop, resizeList]

/-- C149: of two changes of the size only the last one counts, unless the first one removes vertices that the last one adds. -/
theorem c149_resize (d : Bool) (g : Graph) (h : Reachable d g) (n m : Nat) (hn : n < sizeMax) (hm : m < sizeMax)
    (hle : m ≤ n ∨ g.sizeVertex ≤ n) :
    ∃ g1 g2, g.resize false n = .ok g1 ∧ g1.resize false m = .ok g2 ∧ g.resize false m = .ok g2 := by
  obtain ⟨g1, a1, a2, a3, a4⟩ := resize_reach h hn
  obtain ⟨g2, b1, b2, b3, b4⟩ := resize_reach a2 hm
  obtain ⟨g3, c1, c2, c3, c4⟩ := resize_reach h hm
  refine ⟨g1, g2, a1, b1, ?_⟩
  rcases Nat.eq_zero_or_pos m with rfl | h0
  · rw [resize_zero h, ← b1, resize_zero a2]
  · rw [c1]
    congr 1
    refine graph_ext b2 c2 (by omega) (by omega) (fun u v => ?_)
    rw [b4, c4, a4]
    constructor
    · rintro ⟨hu, hv, ha⟩
      have := adj_lt h ha
      exact ⟨hu, hv, by omega, by omega, ha⟩
    · rintro ⟨hu, hv, -, -, ha⟩
      exact ⟨hu, hv, ha⟩

/-- C149: changing the size to the present one changes nothing. -/
theorem c149_same_size (d : Bool) (g : Graph) (h : Reachable d g) (h0 : 0 < g.sizeVertex) :
    g.resize false g.sizeVertex = .ok g := by
  obtain ⟨g1, a1, a2, a3, a4⟩ := resize_reach h (reach_small h)
  rw [a1]
  congr 1
  refine graph_ext h a2 h0 a3 (fun u v => ?_)
  rw [a4]
  constructor
  · exact fun ⟨_, _, ha⟩ => ha
  · intro ha
    have := adj_lt h ha
    exact ⟨this.1, this.2, ha⟩

/-- C149: added vertices can be removed again. -/
theorem c149_grow_back (d : Bool) (g : Graph) (h : Reachable d g) (h0 : 0 < g.sizeVertex) (n : Nat) (hn : n < sizeMax)
    (hle : g.sizeVertex ≤ n) : ∃ g1, g.resize false n = .ok g1 ∧ g1.resize false g.sizeVertex = .ok g := by
  obtain ⟨g1, g2, h1, h2, h3⟩ := c149_resize d g h n g.sizeVertex hn (reach_small h) (.inr hle)
  rw [c149_same_size d g h h0] at h3
  cases h3
  exact ⟨g1, h1, h2⟩

/-- C149: vertices can be added before or after edges between the others. -/
theorem c149_insert_resize (d : Bool) (g : Graph) (h : Reachable d g) (e : Edge) (hne : e.1 ≠ e.2) (n : Nat) (hn : n < sizeMax)
    (h1 : e.1 < n) (h2 : e.2 < n) (hle : g.sizeVertex ≤ n) :
    ∃ g1 g2 r b, g.insert d e = .ok (g1, b) ∧ g1.resize false n = .ok r ∧ g.resize false n = .ok g2 ∧
      g2.insert d e = .ok (r, b) := by
  have he : e.1 + 1 < sizeMax ∧ e.2 + 1 < sizeMax := by omega
  obtain ⟨g1, b, a1, a2, a3, a4⟩ := insert_adj h e hne he
  obtain ⟨r, b1, b2, b3, b4⟩ := resize_reach a2 hn
  obtain ⟨g2, c1, c2, c3, c4⟩ := resize_reach h hn
  obtain ⟨r', b', d1, d2, d3, d4⟩ := insert_adj c2 e hne he
  have hA : ∀ u v, Adj g2 u v ↔ Adj g u v := fun u v => by
    rw [c4]
    constructor
    · exact fun ⟨_, _, ha⟩ => ha
    · intro ha
      have := adj_lt h ha
      exact ⟨by omega, by omega, ha⟩
  have hr : r' = r := by
    refine graph_ext b2 d2 (by omega) (by omega) (fun u v => ?_)
    rw [d3, hA, b4, a3]
    constructor
    · rintro (ha | ha)
      · have := adj_lt h ha
        exact ⟨by omega, by omega, .inl ha⟩
      · refine ⟨?_, ?_, .inr ha⟩ <;> rcases ha with ha | ⟨-, ha⟩ <;> rw [← ha] at h1 h2 <;> simp only at h1 h2 <;> omega
    · exact fun ⟨_, _, ha⟩ => ha
  subst hr
  -- the flags
  obtain ⟨L, l1, l2⟩ := reach_rep h
  obtain ⟨M, m1, m2⟩ := reach_rep c2
  have i1 := l1.insert l2 e hne (by omega)
  have i2 := m1.insert m2 e hne (by omega)
  have hmem : e.2 ∈ row M e.1 ↔ e.2 ∈ row L e.1 := by
    have := hA e.1 e.2
    rwa [l1.adj_iff, m1.adj_iff] at this
  have hb : b' = b := by
    by_cases hin : e.2 ∈ row L e.1
    · have x := i1.1 hin
      have y := i2.1 (hmem.mpr hin)
      rw [a1] at x
      rw [d1] at y
      cases x
      cases y
      rfl
    · obtain ⟨_, x, -⟩ := i1.2 hin
      obtain ⟨_, y, -⟩ := i2.2 (fun hc => hin (hmem.mp hc))
      rw [a1] at x
      rw [d1] at y
      cases x
      cases y
      rfl
  subst hb
  exact ⟨g1, g2, r', b', a1, b1, c1, d1⟩

theorem newIndex_succ (del : Nat → Bool) (v : Nat) : newIndex del (v + 1) = newIndex del v + if del v then 0 else 1 := by
  rw [newIndex_eq, newIndex_eq, rank_succ]

theorem newIndex_comp (p q : Nat → Bool) (v : Nat) :
    newIndex q (newIndex p v) = newIndex (fun u => p u || q (newIndex p u)) v := by
  induction v with
  | zero => rfl
  | succ v ih =>
    rw [newIndex_succ p, newIndex_succ (fun u => p u || q (newIndex p u)), ← ih]
    cases hp : p v
    · simp only [Bool.false_or, Bool.false_eq_true, if_false]
      rw [newIndex_succ]
    · simp

theorem erase_total {d : Bool} {g : Graph} (h : Reachable d g) {p q : Nat → Bool} {g1 : Graph} (he : g.eraseIf p = .ok g1)
    (hle : ∀ v, v < g.sizeVertex → q v = false → p v = false) : ∃ g2, g.eraseIf q = .ok g2 := by
  obtain ⟨L, h1, h2⟩ := reach_rep h
  rw [h1.sizeVertex] at hle
  obtain ⟨g2, k1, -⟩ := h1.eraseIf h2.range q (eraseIf_ok_off h1 he)
    (fun v hv hq => eraseIf_ok_safe h1 he v hv (hle v hv hq))
  exact ⟨g2, k1⟩

theorem erase_reach {d : Bool} {g g' : Graph} (h : Reachable d g) {p : Nat → Bool} (he : g.eraseIf p = .ok g') : Reachable d g' :=
  Graph.Reachable.step h (op := .eraseIf p) trivial he

/-- C149: erasing vertices twice is erasing once with both predicates, the second one on the new numbers. -/
theorem c149_erase_twice (d : Bool) (g g1 g2 : Graph) (h : Reachable d g) (p q : Nat → Bool) (h1 : g.eraseIf p = .ok g1)
    (h2 : g1.eraseIf q = .ok g2) (h0 : 0 < g2.sizeVertex) : g.eraseIf (fun v => p v || q (newIndex p v)) = .ok g2 := by
  obtain ⟨g3, h3⟩ := erase_total h h1 (q := fun v => p v || q (newIndex p v)) (fun v _ hv => by
    simp only [Bool.or_eq_false_iff] at hv; exact hv.1)
  have r1 := erase_reach h h1
  obtain ⟨a1, a2, a3, a4⟩ := c04_erase_if d g g1 h p h1
  obtain ⟨b1, b2, b3, b4⟩ := c04_erase_if d g1 g2 r1 q h2
  obtain ⟨c1, c2, c3, c4⟩ := c04_erase_if d g g3 h _ h3
  rw [h3]
  congr 1
  refine graph_ext (erase_reach r1 h2) (erase_reach h h3) h0 ?_ (fun u v => ?_)
  · rw [c1, b1, a1, newIndex_comp]
  · have hs : g3.sizeVertex = g2.sizeVertex := by rw [c1, b1, a1, newIndex_comp]
    have key : ∀ u v, u < g2.sizeVertex → v < g2.sizeVertex → (Adj g3 u v ↔ Adj g2 u v) := by
      intro u v hu hv
      obtain ⟨x, x1, x2, x3⟩ := c4 u (by omega)
      obtain ⟨y, y1, y2, y3⟩ := c4 v (by omega)
      rw [← x3, ← y3, c2 x y x1 y1 x2 y2, ← newIndex_comp, ← newIndex_comp]
      simp only [Bool.or_eq_false_iff] at x2 y2
      have lx : newIndex p x < g1.sizeVertex := by rw [a1]; exact a3 x _ x1 x2.1
      have ly : newIndex p y < g1.sizeVertex := by rw [a1]; exact a3 y _ y1 y2.1
      rw [b2 _ _ lx ly x2.2 y2.2, a2 x y x1 y1 x2.1 y2.1]
    constructor
    · intro ha
      have := adj_lt (erase_reach h h3) ha
      exact (key u v (by omega) (by omega)).mp ha
    · intro ha
      have := adj_lt (erase_reach r1 h2) ha
      exact (key u v this.1 this.2).mpr ha

theorem newIndex_lt {n v : Nat} (hv : v ≤ n) : newIndex (fun u => decide (n ≤ u)) v = v := by
  induction v with
  | zero => rfl
  | succ v ih => rw [newIndex_succ, ih (by omega), if_neg (by simp; omega)]

/-- C149: erasing all vertices from some number on is changing the size. -/
theorem c149_erase_tail (d : Bool) (g g' : Graph) (h : Reachable d g) (n : Nat) (h0 : 0 < n) (hn : n ≤ g.sizeVertex)
    (he : g.eraseIf (fun v => decide (n ≤ v)) = .ok g') : g.resize false n = .ok g' := by
  have hsm := reach_small h
  obtain ⟨g1, a1, a2, a3, a4⟩ := resize_reach h (show n < sizeMax by omega)
  obtain ⟨c1, c2, c3, c4⟩ := c04_erase_if d g g' h _ he
  have hs : g'.sizeVertex = n := by
    rw [c1]
    have : ∀ m, n ≤ m → newIndex (fun u => decide (n ≤ u)) m = n := by
      intro m hm
      induction m, hm using Nat.le_induction with
      | base => exact newIndex_lt le_rfl
      | succ m hm ih => rw [newIndex_succ, ih]; simp [hm]
    exact this _ hn
  rw [a1]
  congr 1
  have key : ∀ u v, u < n → v < n → (Adj g' u v ↔ Adj g u v) := by
    intro u v hu hv
    have := c2 u v (by omega) (by omega) (by simp; omega) (by simp; omega)
    rwa [newIndex_lt (by omega), newIndex_lt (by omega)] at this
  refine graph_ext (erase_reach h he) a2 (by omega) (by omega) (fun u v => ?_)
  rw [a4]
  constructor
  · rintro ⟨hu, hv, ha⟩
    exact (key u v hu hv).mpr ha
  · intro ha
    have hl := adj_lt (erase_reach h he) ha
    exact ⟨by omega, by omega, (key u v (by omega) (by omega)).mp ha⟩

/-- C149: erasing no vertex changes nothing, if it is defined (see C05). -/
theorem c149_erase_none (d : Bool) (g g' : Graph) (h : Reachable d g) (h0 : 0 < g.sizeVertex)
    (he : g.eraseIf (fun _ => false) = .ok g') : g' = g := by
  obtain ⟨c1, c2, c3, c4⟩ := c04_erase_if d g g' h _ he
  have hid : ∀ v, newIndex (fun _ => false) v = v := by
    intro v
    induction v with
    | zero => rfl
    | succ v ih => rw [newIndex_succ, ih]; rfl
  simp only [hid] at c1 c2
  refine graph_ext h (erase_reach h he) h0 c1 (fun u v => ?_)
  constructor
  · intro ha
    have hl := adj_lt (erase_reach h he) ha
    exact (c2 u v (by omega) (by omega) trivial trivial).mp ha
  · intro ha
    have hl := adj_lt h ha
    exact (c2 u v hl.1 hl.2 trivial trivial).mpr ha

theorem filter_at (f : Nat → Bool) (p : List Nat) (v : Nat) (hv : v < p.length) (hf : f p[v] = true) :
    (p.filter f)[((p.take v).filter f).length]? = some p[v] := by
  induction p generalizing v with
  | nil => simp at hv
  | cons x p ih =>
    cases v with
    | zero =>
      simp only [List.getElem_cons_zero] at hf ⊢
      simp [hf]
    | succ v =>
      simp only [List.getElem_cons_succ] at hf ⊢
      have := ih v (by simpa using hv) hf
      cases hx : f x
      · simp only [List.take_succ_cons, List.filter_cons, hx]
        exact this
      · simp only [List.take_succ_cons, List.filter_cons, hx, if_true, List.length_cons, List.getElem?_cons_succ]
        exact this

theorem newIndex_take (q : Nat → Bool) (p : List Nat) (v : Nat) (hv : v ≤ p.length) :
    newIndex (fun u => q (p.getD u 0)) v = ((p.take v).filter fun i => !q i).length := by
  induction v with
  | zero => rfl
  | succ v ih =>
    have hl : v < p.length := by omega
    rw [newIndex_succ, ih (by omega), List.take_add_one, List.filter_append, List.length_append]
    congr 1
    rw [List.getD_eq_getElem?_getD, List.getElem?_eq_getElem hl]
    simp only [Option.getD_some, Option.toList_some]
    generalize p[v] = x
    by_cases hq : q x = true
    · simp [hq]
    · simp [hq]

/-- C149: erasing vertices after a renumbering is erasing the same vertices before and renumbering the others in the order that
the renumbering gave them. -/
theorem c149_reorder_erase (d : Bool) (g g1 g2 g3 : Graph) (h : Reachable d g) (p : List Nat) (q : Nat → Bool)
    (hp : p.Perm (List.range g.sizeVertex)) (h1 : g.reorder p = .ok (g1, g)) (h2 : g1.eraseIf q = .ok g2)
    (h3 : g.eraseIf (fun v => q (p.getD v 0)) = .ok g3) (h0 : 0 < g2.sizeVertex) :
    g3.reorder ((p.filter fun i => !q i).map (newIndex q)) = .ok (g2, g3) := by
  obtain ⟨g1', e1, r1, s1, a1⟩ := reorder_spec h hp
  rw [h1] at e1
  cases e1
  have r2 := erase_reach r1 h2
  have r3 := erase_reach h h3
  have hlen : p.length = g.sizeVertex := by rw [hp.length_eq, List.length_range]
  obtain ⟨b1, b2, b3, b4⟩ := c04_erase_if d g1 g2 r1 q h2
  obtain ⟨c1, c2, c3, c4⟩ := c04_erase_if d g g3 h _ h3
  have hperm : ((p.filter fun i => !q i).map (newIndex q)).Perm (List.range (newIndex q g.sizeVertex)) := by
    refine ((hp.filter _).map _).trans (List.Perm.of_eq ?_)
    have := map_rank_kept q (fun i => i) g.sizeVertex
    simp only [List.map_id'] at this
    rw [newIndex_eq, ← this]
    unfold kept
    exact List.map_congr_left fun i _ => newIndex_eq q i
  have hsz : newIndex q g.sizeVertex = g3.sizeVertex := by
    rw [c1, ← hlen, newIndex_take q p p.length le_rfl, List.take_length]
    have := hperm.length_eq
    rw [List.length_map, List.length_range] at this
    rw [this, hlen]
  rw [hsz] at hperm
  obtain ⟨g4, e4, r4, s4, a4⟩ := reorder_spec r3 hperm
  rw [e4]
  congr 2
  have hsize : g4.sizeVertex = g2.sizeVertex := by rw [s4, ← hsz, b1, s1]
  have key : ∀ u v, u < g2.sizeVertex → v < g2.sizeVertex → (Adj g4 u v ↔ Adj g2 u v) := by
    intro u v hu hv
    have pre : ∀ w, w < g2.sizeVertex → ∃ x, ∃ hx : x < p.length, q p[x] = false ∧ newIndex q p[x] = w ∧
        ((p.filter fun i => !q i).map (newIndex q))[newIndex (fun u => q (p.getD u 0)) x]? = some w := by
      intro w hw
      obtain ⟨y, y1, y2, y3⟩ := b4 w hw
      have hy : y ∈ p := hp.mem_iff.mpr (List.mem_range.mpr (by omega))
      obtain ⟨x, hx, rfl⟩ := List.mem_iff_getElem.mp hy
      refine ⟨x, hx, y2, y3, ?_⟩
      rw [List.getElem?_map, newIndex_take q p x hx.le, filter_at _ p x hx (by simp [y2]), Option.map_some, y3]
    obtain ⟨x, x1, x2, x3, x4⟩ := pre u hu
    obtain ⟨y, y1, y2, y3, y4⟩ := pre v hv
    have gx : p.getD x 0 = p[x] := by simp [List.getD_eq_getElem?_getD, x1]
    have gy : p.getD y 0 = p[y] := by simp [List.getD_eq_getElem?_getD, y1]
    have px : p[x] < g1.sizeVertex := by
      have := List.mem_range.mp (hp.mem_iff.mp (List.getElem_mem x1)); omega
    have py : p[y] < g1.sizeVertex := by
      have := List.mem_range.mp (hp.mem_iff.mp (List.getElem_mem y1)); omega
    rw [a4 _ _ _ _ x4 y4, c2 x y (by omega) (by omega) (by rw [gx]; exact x2) (by rw [gy]; exact y2), ← x3, ← y3,
      b2 _ _ px py x2 y2, a1 x y p[x] p[y] (List.getElem?_eq_getElem x1) (List.getElem?_eq_getElem y1)]
  refine graph_ext r2 r4 h0 hsize (fun u v => ?_)
  constructor
  · intro ha
    have := adj_lt r4 ha
    exact (key u v (by omega) (by omega)).mp ha
  · intro ha
    have := adj_lt r2 ha
    exact (key u v this.1 this.2).mpr ha

/-- The cycle of four vertices with a chord. -/
def chord : Graph := ⟨[1, 2, 3, 0, 2, 0, 1, 3, 0, 2], [0, 3, 5, 8, 10]⟩

theorem chord_reach : Reachable false chord :=
  ⟨[.insert (0, 1), .insert (1, 2), .insert (2, 3), .insert (3, 0), .insert (0, 2)], by simp [Op.Valid, sizeMax], by decide⟩

example : Reachable false chord ∧ chord.eraseIf (· == 1) = .ok ⟨[1, 2, 0, 2, 0, 1], [0, 2, 4, 6]⟩ ∧
    (⟨[1, 2, 0, 2, 0, 1], [0, 2, 4, 6]⟩ : Graph).eraseIf (· == 0) = .ok ⟨[1, 0], [0, 1, 2]⟩ ∧
    chord.eraseIf (fun v => decide (2 ≤ v)) = .ok ⟨[1, 0], [0, 1, 2]⟩ ∧ chord.eraseIf (fun _ => false) = .ok chord :=
  ⟨chord_reach, by decide +kernel, by decide +kernel, by decide +kernel, by decide +kernel⟩

example : [2, 0, 3, 1].Perm (List.range chord.sizeVertex) ∧
    chord.reorder [2, 0, 3, 1] = .ok (⟨[2, 3, 2, 3, 0, 1, 3, 0, 1, 2], [0, 2, 4, 7, 10]⟩, chord) ∧
    (⟨[2, 3, 2, 3, 0, 1, 3, 0, 1, 2], [0, 2, 4, 7, 10]⟩ : Graph).eraseIf (· == 0) = .ok ⟨[1, 2, 0, 2, 0, 1], [0, 2, 4, 6]⟩ ∧
    chord.eraseIf (fun v => [2, 0, 3, 1].getD v 0 == 0) = .ok ⟨[1, 2, 0, 2, 0, 1], [0, 2, 4, 6]⟩ := by
  decide +kernel

end Disa.Props
