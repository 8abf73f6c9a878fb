import Verif.Graph.Capacity
import Verif.Graph.Reach

/-!
# Property C142: reserved storage of graphs
-/

namespace Disa.Props

open Disa Spec Graph

/-- C142 as stated in the properties file, the part about `reserve`. -/
def C142 : Prop := ∀ (a : Alloc) (d : Bool) (c c' : Room) (v e : Nat), Held a d c → v ≤ sizeMax → e ≤ sizeMax →
  c.reserve a d v e = .ok c' → v ≤ (c'.capacity d).1 ∧ e ≤ (c'.capacity d).2

theorem fit_ge (a : Alloc) (c s n : Nat) : c ≤ a.fit c s n ∧ n ≤ a.fit c s n := by
  unfold Alloc.fit
  split
  · omega
  · have := a.grow_le c s n; omega

theorem fit_eq (a : Alloc) {c s n : Nat} (h : n ≤ c) : a.fit c s n = c := if_pos h

/-- What holds of a graph with its storage. -/
def Fits (d : Bool) (c : Room) (L : List (List Nat)) : Prop :=
  c.graph.Rep L ∧ Good d L ∧ L.length < sizeMax ∧ c.graph.off.length ≤ c.off ∧ c.graph.adj.length ≤ c.adj

theorem length_flatten_filter (L : List (List Nat)) (n : Nat) (p : Nat → Bool) :
    ((L.take n).map fun r => r.filter p).flatten.length ≤ L.flatten.length := by
  induction L generalizing n with
  | nil => simp
  | cons r L ih =>
    cases n with
    | zero => simp
    | succ n =>
      have := ih n
      have := List.length_filter_le p r
      simp only [List.take_succ_cons, List.map_cons, List.flatten_cons, List.length_append]
      omega

theorem rep_off_length {g : Graph} {L : List (List Nat)} (h : g.Rep L) : g.off.length ≤ L.length + 1 := by
  rcases h.2 with h | ⟨_, h⟩ <;> rw [h] <;> simp

theorem mapOut_length {α β : Type} {f : α → Out β} {l : List α} {r : List β} (h : mapOut f l = .ok r) :
    r.length = l.length := by
  induction l generalizing r with
  | nil => simp only [mapOut, Out.ok.injEq] at h; rw [← h]; rfl
  | cons x l ih =>
    simp only [mapOut, Out.bind_eq_ok, Out.pure_eq, Out.ok.injEq] at h
    obtain ⟨y, _, ys, h1, h2⟩ := h
    rw [← h2, List.length_cons, ih h1, List.length_cons]

theorem eraseIf_adj {g g' : Graph} {del : Nat → Bool} (h : g.eraseIf del = .ok g') : g'.adj.length ≤ g.adj.length := by
  unfold Graph.eraseIf at h
  simp only [Out.bind_eq_ok] at h
  obtain ⟨s, _, o, _, off, _, adj, h1, back, _, _, _, h2⟩ := h
  simp only [Out.pure_eq, Out.ok.injEq] at h2
  rw [← h2]
  simp only [mapOut_length h1, List.length_map]
  refine Nat.le_trans (List.length_filter_le _ _) ?_
  rw [List.length_zip]
  omega

theorem wr_length {v v' : List Nat} {i x : Nat} (h : wr v i x = .ok v') : v'.length = v.length := by
  by_cases hi : i < v.length
  · rw [wr_ok hi, Out.ok.injEq] at h; rw [← h, List.length_set]
  · rw [wr_ub (by omega)] at h; cases h

theorem reorder_off_length {g g' g0 : Graph} {perm : List Nat} (h : g.reorder perm = .ok (g', g0)) :
    g'.off.length = g.off.length := by
  unfold Graph.reorder at h
  simp only [Out.bind_eq_ok, Out.pure_eq, Out.ok.injEq, Prod.mk.injEq] at h
  obtain ⟨_, _, _, _, off, h1, adj, _, h2, _⟩ := h
  rw [← h2]
  show off.length = _
  unfold Graph.reorderOff at h1
  simp only at h1
  split at h1
  · simp only [Out.bind_eq_ok] at h1
    obtain ⟨o1, k1, o2, k2, k3⟩ := h1
    have e1 := wr_length k1
    have e2 := loop_inv_of_ok (fun _ (o : List Nat) => o.length = g.off.length) (by rw [e1]; simp) (by
      intro i s s' _ hI hb
      simp only [Graph.reorderCount, Out.bind_eq_ok] at hb
      obtain ⟨_, _, _, _, _, _, hb⟩ := hb
      rw [wr_length hb, hI]) k2
    exact loop_inv_of_ok (fun _ (o : List Nat) => o.length = g.off.length) e2 (by
      intro i s s' _ hI hb
      simp only [Graph.reorderSum, Out.bind_eq_ok] at hb
      obtain ⟨_, _, _, _, hb⟩ := hb
      rw [wr_length hb, hI]) k3
  · simp only [Out.ok.injEq] at h1
    rw [← h1]; simp

theorem room_step {a : Alloc} {d : Bool} {c c' : Room} {L : List (List Nat)} (h : Fits d c L) {op : RoomOp} (hv : op.Valid)
    (hs : roomStep a d c op = .ok c') : ∃ L', Fits d c' L' := by
  obtain ⟨h1, h2, h3, h4, h5⟩ := h
  cases op with
  | call op =>
    cases op with
    | insert e =>
      simp only [roomStep, Out.bind_eq_ok, Room.insert] at hs
      obtain ⟨⟨c1, b⟩, ⟨⟨g, b'⟩, k1, k2⟩, k3⟩ := hs
      simp only [Out.pure_eq, Out.ok.injEq] at k3
      subst k3
      obtain ⟨L', r1, r2, r3⟩ := step_rep h1 h2 (op := .insert e) hv (g' := g) (by simp [step, k1])
      have hne : e.1 ≠ e.2 := fun hne => by rw [Rep.insert_exit hne] at k1; cases k1
      have hi := h1.insert h2 e hne (by have := hv; simp only [RoomOp.Valid, Op.Valid] at this; omega)
      cases b' with
      | true =>
        simp only [if_true, Out.pure_eq, Out.ok.injEq, Prod.mk.injEq] at k2
        rw [← k2.1]
        have hadj : g.adj.length = c.graph.adj.length + if d then 1 else 2 := by
          by_cases hm : e.2 ∈ row L e.1
          · rw [hi.1 hm] at k1; simp at k1
          · obtain ⟨g2, k4, k5⟩ := hi.2 hm
            rw [k4, Out.ok.injEq, Prod.mk.injEq] at k1
            rw [← k1.1, k5.1, insRows_flatten_length hne, h1.1]
        refine ⟨L', r1, r2, r3 h3, (fit_ge a _ _ _).2, ?_⟩
        simp only [hadj]
        cases d
        · exact (fit_ge a _ _ _).2
        · exact (fit_ge a _ _ _).2
      | false =>
        simp only [Bool.false_eq_true, if_false, Out.pure_eq, Out.ok.injEq, Prod.mk.injEq] at k2
        rw [← k2.1]
        have : g = c.graph := by
          by_cases hm : e.2 ∈ row L e.1
          · rw [hi.1 hm] at k1; cases k1; rfl
          · obtain ⟨g2, k4, k5⟩ := hi.2 hm
            rw [k4] at k1; cases k1
        subst this
        exact ⟨L, h1, h2, h3, h4, h5⟩
    | eraseIf del =>
      simp only [roomStep, Room.eraseIf, Out.bind_eq_ok, Out.pure_eq, Out.ok.injEq] at hs
      obtain ⟨g, k1, k2⟩ := hs
      obtain ⟨L', r1, r2, r3⟩ := step_rep h1 h2 (op := .eraseIf del) trivial (g' := g) (by simp [step, k1])
      have hoff := eraseIf_ok_off h1 k1
      have hlen : L'.length ≤ L.length := by
        have e1 := h1.eraseIf_of_ok h2.range k1
        have := e1.sizeVertex
        rw [r1.sizeVertex, eraseRows_length] at this
        rw [this, ← kept_length]
        simpa [kept] using List.length_filter_le _ (List.range L.length)
      rw [← k2]
      refine ⟨L', r1, r2, r3 h3, ?_, ?_⟩
      · have := rep_off_length r1
        rw [hoff, offs_length] at h4
        simp only
        omega
      · have := eraseIf_adj k1
        simp only
        omega
    | resize n =>
      simp only [roomStep, Room.resize, Out.bind_eq_ok, Out.pure_eq, Out.ok.injEq] at hs
      obtain ⟨g, k1, k2⟩ := hs
      have hn : n < sizeMax := hv
      obtain ⟨g1, r1, r2⟩ := h1.resize h2.sorted hn
      rw [r1, Out.ok.injEq] at k1
      subst k1
      rw [← k2]
      refine ⟨_, r2, resizeRows_good h2 n, by rw [resizeRows_length]; exact hn, ?_, ?_⟩
      · have hw : wrap (n + 1) = n + 1 := by unfold wrap; unfold sizeMax at hn; exact Nat.mod_eq_of_lt (by omega)
        have := rep_off_length r2
        rw [resizeRows_length] at this
        have := (fit_ge a c.off c.graph.off.length (wrap (n + 1))).2
        simp only
        omega
      · have hl : (resizeRows L n).flatten.length ≤ L.flatten.length := by
          unfold resizeRows
          split
          · rw [flatten_pad]
          · exact length_flatten_filter L n _
        rw [h1.1] at h5
        simp only
        rw [r2.1]
        split
        · omega
        · have := (fit_ge a c.adj c.graph.adj.length ((resizeList c.graph.off (n + 1) 0).getLastD 0)).1
          omega
    | reorder perm =>
      simp only [roomStep, Room.reorder, Out.bind_eq_ok, Out.pure_eq, Out.ok.injEq] at hs
      obtain ⟨⟨g, g0⟩, k1, k2⟩ := hs
      have hp : IsPerm perm L.length := by
        have := reorder_ok_len k1
        rw [h1.sizeVertex] at this
        rw [← this]; exact hv
      obtain ⟨g2, k3, k4⟩ := h1.reorder h2.range hp
      rw [k1, Out.ok.injEq, Prod.mk.injEq] at k3
      rw [← k2]
      refine ⟨reorderRows perm L, by rw [k3.1]; exact k4, reorderRows_good h2 hp, by simpa using h3, ?_, ?_⟩
      · have hoff := reorder_off_length k1
        have := (fit_ge a 0 0 c.graph.off.length).2
        simp only
        omega
      · have := (fit_ge a 0 0 c.graph.adj.length).2
        simp only
        rw [k3.1, k4.1, reorderRows_total hp, ← h1.1]
        exact this
    | clear =>
      simp only [roomStep, Room.clear, Out.ok.injEq] at hs
      rw [← hs]
      exact ⟨[], rep_new, good_nil d, by decide, by simp [Graph.clear], by simp [Graph.clear]⟩
  | reserve v e =>
    simp only [roomStep, Room.reserve] at hs
    generalize (if (!d) = true then 2 else 1) = k at hs
    split at hs
    · rw [Out.ok.injEq] at hs
      rw [← hs]
      refine ⟨L, h1, h2, h3, ?_, ?_⟩
      · exact Nat.le_trans h4 (fit_ge a _ _ _).1
      · exact Nat.le_trans h5 (fit_ge a _ _ _).1
    · cases hs
  | shrinkToFit =>
    simp only [roomStep, Room.shrinkToFit, Out.ok.injEq] at hs
    rw [← hs]
    exact ⟨L, h1, h2, h3, a.shrink_ge _ _ h4, a.shrink_ge _ _ h5⟩

theorem room_run {a : Alloc} {d : Bool} {c c' : Room} {L : List (List Nat)} (h : Fits d c L) {ops : List RoomOp}
    (hv : ∀ op ∈ ops, op.Valid) (hs : roomRun a d c ops = .ok c') : ∃ L', Fits d c' L' := by
  induction ops generalizing c L with
  | nil => simp only [roomRun, Out.ok.injEq] at hs; subst hs; exact ⟨L, h⟩
  | cons op ops ih =>
    simp only [roomRun, Out.bind_eq_ok] at hs
    obtain ⟨c1, h1, h2⟩ := hs
    obtain ⟨L1, h3⟩ := room_step h (hv op (by simp)) h1
    exact ih h3 (fun op ho => hv op (by simp [ho])) h2

theorem held_fits {a : Alloc} {d : Bool} {c : Room} (h : Held a d c) : ∃ L, Fits d c L := by
  obtain ⟨ops, hv, hr⟩ := h
  exact room_run ⟨rep_new, good_nil d, by decide, by simp [Room.new, Graph.new], by simp [Room.new, Graph.new]⟩ hv hr

theorem fits_sizes {d : Bool} {c : Room} {L : List (List Nat)} (h : Fits d c L) :
    c.graph.sizeVertex ≤ (c.capacity d).1 ∧ c.graph.sizeEdge d ≤ (c.capacity d).2 := by
  obtain ⟨h1, h2, h3, h4, h5⟩ := h
  constructor
  · unfold Graph.sizeVertex Room.capacity
    cases ho : c.graph.off with
    | nil => simp
    | cons x l =>
      rw [ho] at h4
      simp only [List.isEmpty_cons, Bool.not_false, if_true, List.length_cons] at h4 ⊢
      rw [if_neg (by omega)]
      omega
  · unfold Graph.sizeEdge Room.capacity
    cases d
    · simp only [Bool.not_false, if_true]; omega
    · simpa using h5

/-- C142: whatever was called before, `capacity` is at least the number of vertices and edges. -/
theorem c142_sizes (a : Alloc) (d : Bool) (c : Room) (h : Held a d c) :
    c.graph.sizeVertex ≤ (c.capacity d).1 ∧ c.graph.sizeEdge d ≤ (c.capacity d).2 := by
  obtain ⟨L, h⟩ := held_fits h
  exact fits_sizes h

/-- C142, sizes that do not wrap around: `reserve` ends the program or gives the capacity asked for, without changing the
graph or taking capacity away. -/
theorem c142_reserve_partial (a : Alloc) (d : Bool) (c c' : Room) (v e : Nat) (hv : v < sizeMax)
    (he : e * (if d then 1 else 2) ≤ sizeMax) (hr : c.reserve a d v e = .ok c') :
    c'.graph = c.graph ∧ v ≤ (c'.capacity d).1 ∧ e ≤ (c'.capacity d).2 ∧
      (c.capacity d).1 ≤ (c'.capacity d).1 ∧ (c.capacity d).2 ≤ (c'.capacity d).2 := by
  have hwv : wrap (v + 1) = v + 1 := by unfold wrap; unfold sizeMax at hv; exact Nat.mod_eq_of_lt (by omega)
  have hwe : wrap (e * (if !d then 2 else 1)) = e * (if d then 1 else 2) := by
    have : (if (!d) = true then 2 else 1) = (if d = true then 1 else 2) := by cases d <;> rfl
    rw [this]; unfold wrap; unfold sizeMax at he; exact Nat.mod_eq_of_lt (by omega)
  unfold Room.reserve at hr
  rw [hwv, hwe] at hr
  generalize hk : (if d = true then 1 else 2) = k at hr he
  split at hr
  · rw [Out.ok.injEq] at hr
    rw [← hr]
    have h1 := fit_ge a c.off c.graph.off.length (v + 1)
    have h2 := fit_ge a c.adj c.graph.adj.length (e * k)
    refine ⟨rfl, ?_⟩
    unfold Room.capacity
    simp only
    generalize a.fit c.off c.graph.off.length (v + 1) = x at h1
    generalize a.fit c.adj c.graph.adj.length (e * k) = y at h2
    rw [if_neg (show ¬ x = 0 by omega)]
    refine ⟨by omega, ?_, ?_, ?_⟩
    · cases d
      · simp only [Bool.false_eq_true, if_false] at hk; subst hk; simp only [Bool.not_false, if_true]; omega
      · simp only [if_true] at hk; subst hk; simp only [Bool.not_true, Bool.false_eq_true, if_false]; omega
    · split <;> omega
    · cases d
      · simp only [Bool.not_false, if_true]; omega
      · simp only [Bool.not_true, Bool.false_eq_true, if_false]; omega
  · cases hr

/-- One insertion that leaves the sizes inside of the capacity. -/
theorem insert_room {a : Alloc} {d : Bool} {c c' : Room} {L : List (List Nat)} {e : Edge} {b : Bool} (h : Fits d c L)
    (he : e.1 + 1 < sizeMax ∧ e.2 + 1 < sizeMax) (hi : c.insert a d e = .ok (c', b)) :
    (∃ L', Fits d c' L') ∧ c.graph.sizeVertex ≤ c'.graph.sizeVertex ∧ c.graph.sizeEdge d ≤ c'.graph.sizeEdge d ∧
    (c'.graph.sizeVertex ≤ (c.capacity d).1 → c'.graph.sizeEdge d ≤ (c.capacity d).2 → c'.off = c.off ∧ c'.adj = c.adj) := by
  have hstep := room_step h (op := .call (.insert e)) he (c' := c') (a := a) (by simp [roomStep, hi])
  refine ⟨hstep, ?_⟩
  obtain ⟨h1, h2, h3, h4, h5⟩ := h
  simp only [Out.bind_eq_ok, Room.insert] at hi
  obtain ⟨⟨g, b'⟩, k1, k2⟩ := hi
  have hne : e.1 ≠ e.2 := fun hne => by rw [Rep.insert_exit hne] at k1; cases k1
  have hi := h1.insert h2 e hne (by omega)
  by_cases hm : e.2 ∈ row L e.1
  · rw [hi.1 hm, Out.ok.injEq, Prod.mk.injEq] at k1
    rw [← k1.1, ← k1.2] at k2
    simp only [Bool.false_eq_true, if_false, Out.pure_eq, Out.ok.injEq, Prod.mk.injEq] at k2
    rw [← k2.1]
    exact ⟨Nat.le_refl _, Nat.le_refl _, fun _ _ => ⟨rfl, rfl⟩⟩
  · obtain ⟨g2, k4, k5⟩ := hi.2 hm
    rw [k4, Out.ok.injEq, Prod.mk.injEq] at k1
    rw [← k1.1, ← k1.2] at k2
    simp only [if_true, Out.pure_eq, Out.ok.injEq, Prod.mk.injEq] at k2
    rw [← k2.1]
    have hadj := k5.1
    have hlen := insRows_flatten_length (d := d) (L := L) hne
    have hsv := k5.sizeVertex
    rw [insRows_length] at hsv
    have hpos : 0 < g2.sizeVertex := by omega
    refine ⟨by show _ ≤ g2.sizeVertex; rw [hsv, h1.sizeVertex]; omega, ?_, ?_⟩
    · show _ ≤ g2.sizeEdge d
      unfold Graph.sizeEdge
      rw [hadj, hlen, h1.1]
      cases d
      · simp only [Bool.not_false, if_true]; omega
      · simp
    · intro hv hE
      have hv : g2.sizeVertex ≤ (c.capacity d).1 := hv
      have hE : g2.sizeEdge d ≤ (c.capacity d).2 := hE
      constructor
      · show a.fit c.off c.graph.off.length g2.off.length = c.off
        apply fit_eq
        have := rep_off_length k5
        unfold Room.capacity at hv
        simp only at hv
        split at hv
        · omega
        · rw [insRows_length] at this
          omega
      · have hfl : g2.adj.length ≤ c.adj := by
          have hst := k5.stored (insRows_good h2 hne hm)
          rw [hadj, hst]
          unfold Room.capacity at hE
          simp only at hE
          cases d
          · simp only [Bool.not_false, if_true, Bool.false_eq_true, if_false] at hE ⊢; omega
          · simpa using hE
        rw [hadj, hlen, ← h1.1] at hfl
        cases d
        · simp only [Bool.false_eq_true, if_false] at hfl ⊢
          rw [fit_eq a (show c.graph.adj.length + 1 ≤ c.adj by omega), fit_eq a hfl]
        · simp only [if_true] at hfl ⊢
          exact fit_eq a hfl

/-- C142: insertions that leave at most as many vertices and edges as the capacity says do not move the storage. -/
theorem c142_insert (a : Alloc) (d : Bool) (c c' : Room) (h : Held a d c) (es : List Edge)
    (hes : ∀ e ∈ es, e.1 + 1 < sizeMax ∧ e.2 + 1 < sizeMax) (hi : roomInsert a d c es = .ok c')
    (hv : c'.graph.sizeVertex ≤ (c.capacity d).1) (he : c'.graph.sizeEdge d ≤ (c.capacity d).2) :
    c'.capacity d = c.capacity d := by
  obtain ⟨L, hf⟩ := held_fits h
  clear h
  have h := hf
  clear hf
  suffices c'.off = c.off ∧ c'.adj = c.adj by unfold Room.capacity; rw [this.1, this.2]
  have mono : ∀ es (c : Room) L, Fits d c L → (∀ e ∈ es, e.1 + 1 < sizeMax ∧ e.2 + 1 < sizeMax) →
      roomInsert a d c es = .ok c' → c.graph.sizeVertex ≤ c'.graph.sizeVertex ∧ c.graph.sizeEdge d ≤ c'.graph.sizeEdge d := by
    intro es
    induction es with
    | nil => intro c L _ _ hi; simp only [roomInsert, Out.ok.injEq] at hi; subst hi; omega
    | cons e es ih =>
      intro c L h hes hi
      simp only [roomInsert, Out.bind_eq_ok] at hi
      obtain ⟨⟨c1, b⟩, h1, h2⟩ := hi
      obtain ⟨⟨L1, k1⟩, k2, k3, _⟩ := insert_room h (hes e (by simp)) h1
      have := ih c1 L1 k1 (fun e he => hes e (by simp [he])) h2
      omega
  induction es generalizing c L with
  | nil => simp only [roomInsert, Out.ok.injEq] at hi; subst hi; exact ⟨rfl, rfl⟩
  | cons e es ih =>
    simp only [roomInsert, Out.bind_eq_ok] at hi
    obtain ⟨⟨c1, b⟩, h1, h2⟩ := hi
    obtain ⟨⟨L1, k1⟩, k2, k3, k4⟩ := insert_room h (hes e (by simp)) h1
    have hes' := fun e' he' => hes e' (List.mem_cons_of_mem e he')
    have hm := mono es c1 L1 k1 hes' h2
    obtain ⟨k5, k6⟩ := k4 (by omega) (by omega)
    have hcap : c1.capacity d = c.capacity d := by unfold Room.capacity; rw [k5, k6]
    obtain ⟨k7, k8⟩ := ih c1 hes' h2 (by rw [hcap]; exact hv) (by rw [hcap]; exact he) L1 k1
    exact ⟨by rw [k7, k5], by rw [k8, k6]⟩

/-- C142: what `reserve` was for.  After it, insertions of edges between the first `v` vertices do not move the storage
while there are at most `e` edges. -/
theorem c142_reserve_insert (a : Alloc) (d : Bool) (c c1 c' : Room) (h : Held a d c) (v e : Nat) (hv : v < sizeMax)
    (he : e * (if d then 1 else 2) ≤ sizeMax) (hr : c.reserve a d v e = .ok c1) (es : List Edge)
    (hes : ∀ e ∈ es, e.1 + 1 < sizeMax ∧ e.2 + 1 < sizeMax) (hi : roomInsert a d c1 es = .ok c')
    (hv' : c'.graph.sizeVertex ≤ v) (he' : c'.graph.sizeEdge d ≤ e) : c'.capacity d = c1.capacity d := by
  obtain ⟨_, h1, h2, _⟩ := c142_reserve_partial a d c c1 v e hv he hr
  have hh : Held a d c1 := by
    obtain ⟨ops, k1, k2⟩ := h
    refine ⟨ops ++ [.reserve v e], ?_, ?_⟩
    · intro op hop
      rcases List.mem_append.mp hop with hop | hop
      · exact k1 op hop
      · rw [List.mem_singleton.mp hop]; trivial
    · have : ∀ (ops : List RoomOp) (c0 : Room), roomRun a d c0 ops = .ok c → roomRun a d c0 (ops ++ [.reserve v e]) = .ok c1 := by
        intro ops
        induction ops with
        | nil => intro c0 h0; simp only [roomRun, Out.ok.injEq] at h0; subst h0; simp [roomRun, roomStep, hr]
        | cons op ops ih =>
          intro c0 h0
          simp only [roomRun, Out.bind_eq_ok, List.cons_append] at h0 ⊢
          obtain ⟨c2, h3, h4⟩ := h0
          exact ⟨c2, h3, ih c2 h4⟩
      exact this ops _ k2
  exact c142_insert a d c1 c' hh es hes hi (by omega) (by omega)

/-- C142: `erase_if` and `clear` keep the capacity, and so does `resize` to at most the number of vertices. -/
theorem c142_keep (a : Alloc) (d : Bool) (c c' : Room) (h : Held a d c) (op : Op) (hs : roomStep a d c (.call op) = .ok c')
    (hop : match op with
      | .eraseIf _ => True
      | .clear => True
      | .resize n => n ≤ c.graph.sizeVertex ∧ 0 < c.graph.sizeVertex
      | _ => False) : c'.capacity d = c.capacity d := by
  obtain ⟨L, h1, h2, h3, h4, h5⟩ := held_fits h
  suffices c'.off = c.off ∧ c'.adj = c.adj by unfold Room.capacity; rw [this.1, this.2]
  cases op with
  | insert e => exact hop.elim
  | reorder p => exact hop.elim
  | eraseIf del =>
    simp only [roomStep, Room.eraseIf, Out.bind_eq_ok, Out.pure_eq, Out.ok.injEq] at hs
    obtain ⟨g, _, k2⟩ := hs
    rw [← k2]; exact ⟨rfl, rfl⟩
  | clear =>
    simp only [roomStep, Room.clear, Out.ok.injEq] at hs
    rw [← hs]; exact ⟨rfl, rfl⟩
  | resize n =>
    obtain ⟨hn, h0⟩ := hop
    simp only [roomStep, Room.resize, Out.bind_eq_ok, Out.pure_eq, Out.ok.injEq] at hs
    obtain ⟨g, _, k2⟩ := hs
    rw [h1.sizeVertex] at hn h0
    have hne : L ≠ [] := by rintro rfl; simp at h0
    have ho := h1.off hne
    have hw : wrap (n + 1) = n + 1 := by unfold wrap; unfold sizeMax at h3; exact Nat.mod_eq_of_lt (by omega)
    rw [← k2]
    constructor
    · simp only
      rw [hw]
      apply fit_eq
      rw [ho, offs_length] at h4
      omega
    · simp only
      rw [if_neg (by rw [h1.sizeVertex]; omega)]
      apply fit_eq
      have hlast : (resizeList c.graph.off (n + 1) 0).getLastD 0 = psum L n := by
        have : resizeList c.graph.off (n + 1) 0 = (offs L).take (n + 1) := by
          unfold resizeList
          rw [ho, Nat.sub_eq_zero_of_le (by rw [offs_length]; omega)]
          simp
        rw [this, List.getLastD_eq_getLast?, List.getLast?_take, if_neg (by omega)]
        simp only [Nat.add_sub_cancel]
        rw [offs_getElem? L hn]
        simp
      rw [hlast]
      have := psum_le L n
      rw [h1.1] at h5
      omega

/-- An allocator that allocates what is needed. -/
def exactAlloc : Alloc := ⟨fun _ _ n => n, fun _ n => n, 2 ^ 60 - 1, fun _ _ _ => Nat.le_refl _, fun _ _ _ => Nat.le_refl _, fun _ _ h => h⟩

/-- `reserve` with the largest number of vertices reserves nothing, and so does `reserve` of an undirected graph with
`2 ^ 63` edges. -/
theorem c142_violated : ¬ C142 := by
  intro h
  have := (h exactAlloc true Room.new Room.new sizeMax 0 ⟨[], by simp, rfl⟩ (Nat.le_refl _) (by decide) rfl).1
  revert this
  decide

theorem c142_wrap (a : Alloc) (d : Bool) (c : Room) (v : Nat) (hv : v < sizeMax) (h : (c.capacity d).1 ≥ v) (hc : c.off ≠ 0)
    (hm : v + 1 ≤ a.max) :
    c.reserve a d sizeMax 0 = .ok c ∧ c.reserve a false v (2 ^ 63) = .ok c := by
  have h1 : wrap (sizeMax + 1) = 0 := by decide
  have h2 : wrap (2 ^ 63 * 2) = 0 := by decide
  have hwv : wrap (v + 1) = v + 1 := by unfold wrap; unfold sizeMax at hv; exact Nat.mod_eq_of_lt (by omega)
  have hv' : v + 1 ≤ c.off := by
    unfold Room.capacity at h
    simp only [if_neg hc] at h
    omega
  constructor
  · unfold Room.reserve
    rw [h1, Nat.zero_mul, show wrap 0 = 0 from rfl, if_pos ⟨Nat.zero_le _, Nat.zero_le _⟩, fit_eq a (Nat.zero_le _),
      fit_eq a (Nat.zero_le _)]
  · unfold Room.reserve
    rw [show (if (!false) = true then 2 else 1) = 2 from rfl, h2, hwv, if_pos ⟨hm, Nat.zero_le _⟩, fit_eq a hv',
      fit_eq a (Nat.zero_le _)]

/-- The hypotheses can be met: three vertices and two edges are reserved, and two edges are inserted. -/
example : ∃ c1 c', Room.new.reserve exactAlloc false 3 2 = .ok c1 ∧ c1.capacity false = (3, 2) ∧
    roomInsert exactAlloc false c1 [(0, 2), (2, 1)] = .ok c' ∧ c'.graph.sizeVertex = 3 ∧ c'.graph.sizeEdge false = 2 ∧
    c'.capacity false = (3, 2) :=
  ⟨_, _, rfl, by decide, rfl, by decide, by decide, by decide⟩

end Disa.Props
