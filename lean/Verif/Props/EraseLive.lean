import Verif.Graph.EraseLive
import Verif.Graph.Reach
import Verif.Graph.Erase

/-!
# Property C162: erasing vertices by a predicate which looks at the graph
-/

namespace Disa.Props

open Disa Spec Graph

theorem loop_same_inv {σ : Type} {f h : Nat → σ → Out σ} (I : σ → Prop) {n : Nat} {s : σ} (h0 : I s)
    (hs : ∀ i s, i < n → I s → f i s = h i s ∧ ∀ s', h i s = .ok s' → I s') :
    loop n f s = loop n h s ∧ ∀ s', loop n h s = .ok s' → I s' := by
  induction n with
  | zero => exact ⟨rfl, fun s' e => by simp only [loop, Out.ok.injEq] at e; exact e ▸ h0⟩
  | succ n ih =>
    obtain ⟨h1, h2⟩ := ih (fun i s hi => hs i s (by omega))
    simp only [loop, h1]
    cases hl : loop n h s with
    | ok a =>
      obtain ⟨e1, e2⟩ := hs n a (by omega) (h2 a hl)
      simp only [Out.ok_bind]
      exact ⟨e1, e2⟩
    | _ => exact ⟨rfl, fun s' e => by cases e⟩

/-- The offsets which `std::remove_if` leaves, if the predicate gives the same answer whenever it is called. -/
theorem liveKeep_ok {adj off : List Nat} {del : Graph → Nat → Out Bool} {p : Nat → Bool} (hne : off ≠ [])
    (hp : ∀ i off', i + 1 < off.length → off'.length = off.length → (∀ j, i ≤ j → off'[j]? = off[j]?) →
      del ⟨adj, off'⟩ i = .ok (p i)) :
    ∃ k, loop off.length (liveKeep adj del) (off, 0) = .ok k ∧
      k.1.take k.2 = (off.zipIdx.filter fun q => !(q.2 < off.length - 1 && p q.2)).map Prod.fst := by
  obtain ⟨k, h1, h2, h3, h4, h5⟩ := loop_inv (body := liveKeep adj del) (n := off.length) (s := (off, 0))
    (fun i k => k.1.length = off.length ∧ k.2 ≤ i ∧ (∀ j, i ≤ j → k.1[j]? = off[j]?) ∧
      k.1.take k.2 = ((off.take i).zipIdx.filter fun q => !(q.2 < off.length - 1 && p q.2)).map Prod.fst)
    ⟨rfl, Nat.le_refl _, fun _ _ => rfl, by simp⟩ (by
      rintro i ⟨o, r⟩ hi ⟨h1, h2, h3, h4⟩
      dsimp only at h1 h2 h3 h4
      have hsz : sizeVertex ⟨adj, o⟩ = off.length - 1 := by
        have : o ≠ [] := by rintro rfl; simp at h1; exact hne (List.length_eq_zero_iff.mp (by omega))
        simp only [Graph.sizeVertex]
        cases o with
        | nil => exact absurd rfl this
        | cons a t => simp at h1 ⊢; omega
      have hc : liveAsk adj del i o = .ok (decide (i < off.length - 1) && p i) := by
        rw [liveAsk, hsz]
        by_cases hlt : i < off.length - 1
        · rw [if_pos hlt, hp i o (by omega) h1 h3]; simp [hlt]
        · rw [if_neg hlt]; simp [hlt]
      have hx : rd o i = .ok off[i] := rd_of_some (by rw [h3 i (Nat.le_refl _)]; simp [hi])
      have ht : ((off.take (i + 1)).zipIdx.filter fun q => !(q.2 < off.length - 1 && p q.2)).map Prod.fst =
          ((off.take i).zipIdx.filter fun q => !(q.2 < off.length - 1 && p q.2)).map Prod.fst ++
            if decide (i < off.length - 1) && p i then [] else [off[i]] := by
        rw [List.take_succ_eq_append_getElem hi, List.zipIdx_append, List.filter_append, List.map_append]
        congr 1
        have hl : (off.take i).length = i := by simp; omega
        simp only [hl, List.zipIdx_singleton, Nat.zero_add]
        cases hb : (decide (i < off.length - 1) && p i) <;> simp only [List.filter_cons, hb] <;> simp
      unfold liveKeep
      simp only [hc, hx, Out.ok_bind]
      cases hb : (decide (i < off.length - 1) && p i) with
      | true =>
        refine ⟨(o, r), rfl, h1, by omega, fun j hj => h3 j (by omega), ?_⟩
        rw [ht, hb]; simpa using h4
      | false =>
        have hw : wr o r off[i] = .ok (o.set r off[i]) := wr_ok (by omega)
        simp only [hw, Out.ok_bind, Bool.false_eq_true, if_false]
        refine ⟨_, rfl, by simpa using h1, by dsimp only; omega, ?_, ?_⟩
        · intro j hj
          dsimp only
          rw [List.getElem?_set_ne (by omega)]
          exact h3 j (by omega)
        · dsimp only
          rw [ht, hb, ← h4, List.take_succ_eq_append_getElem (by simp; omega), List.take_set_of_le (Nat.le_refl _)]
          simp)
  refine ⟨k, h1, ?_⟩
  rw [h5, List.take_length]

/-- If the first loop of `erase_if` runs as with a fixed predicate, and so does the removal of the offsets, the call does
what it does with the fixed predicate. -/
theorem live_eq {g : Graph} {del : Graph → Nat → Out Bool} {p : Nat → Bool} (I : EraseState → Prop)
    (h0 : I ⟨g.off, List.replicate g.adj.length false, List.replicate g.adj.length sizeMax, 0, 0⟩)
    (hb : ∀ v s, v < g.sizeVertex → I s → liveBody g.adj del v s = eraseBody g.adj p v s ∧
      ∀ s', eraseBody g.adj p v s = .ok s' → I s')
    (hk : ∀ s o off, I s → rd s.off (s.off.length - 1) = .ok o →
      wr s.off (s.off.length - 1) (usub o s.removed) = .ok off → off.length = g.off.length ∧
        ∀ i off', i < g.sizeVertex → off'.length = g.off.length → (∀ j, i ≤ j → off'[j]? = off[j]?) →
          del ⟨g.adj, off'⟩ i = .ok (p i)) :
    eraseIfLive g del = eraseIf g p := by
  obtain ⟨h1, h2⟩ := loop_same_inv (f := liveBody g.adj del) (h := eraseBody g.adj p) I h0 hb
  unfold eraseIfLive eraseIf
  simp only [h1]
  cases hl : loop g.sizeVertex (eraseBody g.adj p)
      ⟨g.off, List.replicate g.adj.length false, List.replicate g.adj.length sizeMax, 0, 0⟩ with
  | ok s =>
    simp only [Out.ok_bind]
    cases hr : rd s.off (s.off.length - 1) with
    | ok o =>
      simp only [Out.ok_bind]
      cases hw : wr s.off (s.off.length - 1) (usub o s.removed) with
      | ok off =>
        obtain ⟨h3, h4⟩ := hk s o off (h2 s hl) hr hw
        have hne : off ≠ [] := by
          rintro rfl
          have : s.off.length - 1 < s.off.length := by
            by_contra hc
            simp [wr, hc] at hw
          rw [wr_ok this] at hw
          simp only [Out.ok.injEq] at hw
          have := congrArg List.length hw
          simp at this
          simp_all
        have hn : g.sizeVertex = off.length - 1 := by
          rw [h3, Graph.sizeVertex]
          cases g.off <;> simp
        obtain ⟨k, h5, h6⟩ := liveKeep_ok (adj := g.adj) (del := del) (p := p) hne
          (fun i off' hi hlen hj => h4 i off' (by omega) (by omega) hj)
        simp only [Out.ok_bind, h5, h6, hn]
      | _ => rfl
    | _ => rfl
  | _ => rfl

/-- Everything `erase_if` does before it calls the predicate leaves the number of offsets. -/
theorem eraseBody_length {adj : List Nat} {p : Nat → Bool} {v : Nat} {s s' : EraseState}
    (h : eraseBody adj p v s = .ok s') : s'.off.length = s.off.length := by
  unfold eraseBody at h
  simp only [Out.bind_eq_ok] at h
  obtain ⟨⟨b, e⟩, _, r, _, o, _, off, hw, h⟩ := h
  have hlen : off.length = s.off.length := by
    unfold wr at hw
    split at hw
    · simp only [Out.ok.injEq] at hw; rw [← hw]; simp
    · cases hw
  split at h
  · simp only [Out.bind_eq_ok, Out.pure_eq, Out.ok.injEq] at h
    obtain ⟨_, _, _, _, rfl⟩ := h
    exact hlen
  · simp only [Out.bind_eq_ok, Out.pure_eq, Out.ok.injEq] at h
    obtain ⟨_, _, rfl⟩ := h
    exact hlen

theorem wr_length {l l' : List Nat} {i x : Nat} (h : wr l i x = .ok l') : l'.length = l.length := by
  unfold wr at h
  split at h
  · simp only [Out.ok.injEq] at h; rw [← h]; simp
  · cases h

/-- C162, the predicates of C04: with a predicate which does not look at the graph the call is the one of C04. -/
theorem c162_fixed (g : Graph) (p : Nat → Bool) : eraseIfLive g (fun _ v => .ok (p v)) = eraseIf g p := by
  apply live_eq (fun s => s.off.length = g.off.length) rfl
  · intro v s _ hs
    refine ⟨?_, fun s' h => (eraseBody_length h).trans hs⟩
    unfold liveBody eraseBody
    have : ∀ r : List Nat, mapOut (fun v => Out.ok (p v)) r = .ok (r.map p) := fun r => mapOut_ok (fun _ _ => rfl)
    simp only [this, Out.ok_bind, List.countP_map, Function.comp_def, id]
  · intro s o off hs _ hw
    exact ⟨(wr_length hw).trans hs, fun _ _ _ _ _ => rfl⟩

/-- The claim: the vertices which `erase_if` deletes are those for which the predicate held when it was called, here for
the predicate "the degree is below `k`". -/
def C162 : Prop := ∀ (d : Bool) (g : Graph) (k : Nat) (p : Nat → Bool), Reachable d g →
  (∀ v, v < g.sizeVertex → degreeBelow k g v = .ok (p v)) → eraseIfLive g (degreeBelow k) = eraseIf g p

/-- The triangle 0, 1, 2 with the pendant vertex 3 at 2. -/
def pendant : Graph := ⟨[1, 2, 0, 2, 0, 1, 3, 2], [0, 2, 4, 7, 8]⟩

theorem reachable_pendant : Reachable false pendant :=
  ⟨[.insert (0, 1), .insert (0, 2), .insert (1, 2), .insert (2, 3)], by
    simp [Op.Valid, sizeMax], by decide⟩

/-- C162: erasing the vertices of degree below two from the triangle with a pendant vertex leaves a vertex which is
adjacent to itself, without any message. -/
theorem c162_corrupts : ∃ g', eraseIfLive pendant (degreeBelow 2) = .ok g' ∧ g'.sizeVertex = 3 ∧ Adj g' 2 2 :=
  ⟨⟨[1, 2, 0, 2, 0, 1, 2], [0, 2, 4, 7]⟩, by decide, by decide, ⟨[0, 1, 2], by decide, by decide⟩⟩

/-- C162 is false. -/
theorem c162_violated : ¬ C162 := by
  intro h
  have := h false pendant 2 (fun v => v == 3) reachable_pendant (by decide)
  revert this
  decide

/-- C162: in the path 0, 1, 2 only vertex 1 has degree two, and it is deleted with the others. -/
theorem c162_path : eraseIfLive ⟨[1, 0, 2, 1], [0, 1, 3, 4]⟩ (degreeBelow 2) = .ok ⟨[], [0]⟩ := by decide

/-- C162, what holds: a predicate which reads no more than the row of the vertex it is asked about is followed if no edge
touches a vertex to delete. -/
theorem c162_partial {d : Bool} {g : Graph} (hg : Reachable d g) (del : Graph → Nat → Out Bool) (p : Nat → Bool)
    (hp : ∀ v, v < g.sizeVertex → del g v = .ok (p v))
    (hloc : ∀ v off', v < g.sizeVertex → off'.length = g.off.length → off'[v]? = g.off[v]? →
      off'[v + 1]? = g.off[v + 1]? → del ⟨g.adj, off'⟩ v = del g v)
    (hno : ∀ u v, Adj g u v → p u = false ∧ p v = false) : eraseIfLive g del = eraseIf g p := by
  obtain ⟨L, hL, hG⟩ := reach_rep hg
  have hn := hL.sizeVertex
  have hadj : ∀ u v, v ∈ row L u → p u = false ∧ p v = false := fun u v hv =>
    hno u v ⟨row L u, hL.nbrs (lt_of_mem_row hv), hv⟩
  by_cases hnil : L = []
  · subst hnil
    apply live_eq (fun s => s.off = g.off) rfl
    · intro v s hv; rw [hn] at hv; simp at hv
    · intro s o off hs _ hw
      exact ⟨by rw [wr_length hw, hs], fun i _ hi => by rw [hn] at hi; simp at hi⟩
  have ho := hL.off hnil
  have ha := hL.1
  apply live_eq (fun s => s.off = g.off ∧ s.removed = 0) ⟨rfl, rfl⟩
  · rintro v ⟨off, adjDel, newIdx, removed, iv⟩ hv ⟨h1, h2⟩
    dsimp only at h1 h2
    subst h1 h2
    rw [hn] at hv
    have r1 : rd g.off v = .ok (psum L v) := rd_of_some (by rw [ho, offs_getElem? _ (by omega)])
    have r2 : rd g.off (v + 1) = .ok (psum L (v + 1)) := rd_of_some (by rw [ho, offs_getElem? _ (by omega)])
    have hs := slice_row L hv
    rw [← row_of_lt hv, ← ha] at hs
    have hw : wr g.off v (usub (psum L v) 0) = .ok g.off := by
      have hlt : v < g.off.length := by rw [ho, offs_length]; omega
      rw [wr_ok hlt]
      congr 1
      apply List.ext_getElem?
      intro j
      rw [List.getElem?_set]
      split
      · next e => subst e; rw [ho, offs_getElem? _ (by omega)]; simp [usub_of_le]
      · rfl
    have hdel : ∀ w, w < L.length → del ⟨g.adj, g.off⟩ w = .ok (p w) := fun w hw' => hp w (by rw [hn]; exact hw')
    have hmap : mapOut (del ⟨g.adj, g.off⟩) (row L v) = .ok ((row L v).map p) :=
      mapOut_ok (fun w hw' => hdel w (hG.range v w hw'))
    have hcnt : (row L v).countP p = 0 := List.countP_eq_zero.mpr (fun w hw' => by simp [(hadj v w hw').2])
    have hemp : p v = true → row L v = [] := fun hpv => List.eq_nil_iff_forall_not_mem.mpr
      (fun w hw' => by simp [(hadj v w hw').1] at hpv)
    have hps := psum_succ L hv
    rw [← row_of_lt hv] at hps
    constructor
    · unfold liveBody eraseBody
      simp only [Graph.adjIter, r1, r2, Out.ok_bind, Out.pure_eq, hs, hw, hdel v hv, hmap, List.countP_map,
        Function.comp_def, id]
    · intro s' h
      unfold eraseBody at h
      simp only [Graph.adjIter, r1, r2, Out.ok_bind, Out.pure_eq, hs, hw] at h
      cases hpv : p v with
      | true =>
        simp only [hpv, Bool.not_true, Bool.false_eq_true, if_false, Out.bind_eq_ok, Out.ok.injEq] at h
        obtain ⟨_, _, rfl⟩ := h
        refine ⟨rfl, ?_⟩
        rw [hemp hpv] at hps
        simp at hps ⊢
        omega
      | false =>
        simp only [hpv, Bool.not_false, if_true, Out.bind_eq_ok, Out.ok.injEq] at h
        obtain ⟨_, _, _, _, rfl⟩ := h
        exact ⟨rfl, by simpa using hcnt⟩
  · rintro s o off ⟨h1, h2⟩ hr hw
    rw [h1] at hr hw
    have hoff : off = g.off := by
      rw [h2] at hw
      unfold wr at hw
      split at hw
      · next hlt =>
        simp only [Out.ok.injEq] at hw
        rw [rd_ok hlt] at hr
        simp only [Out.ok.injEq] at hr
        rw [← hw, ← hr]
        simp [usub_of_le]
      · cases hw
    refine ⟨by rw [hoff], fun i off' hi hlen hj => ?_⟩
    rw [hoff] at hj
    rw [hloc i off' hi hlen (hj i (Nat.le_refl _)) (hj (i + 1) (by omega))]
    exact hp i hi

/-- C162 for the degree: vertices of degree below `k` are deleted as asked if all of them are isolated. -/
theorem c162_isolated {g : Graph} (hg : Reachable false g) (k : Nat) (p : Nat → Bool)
    (hp : ∀ v, v < g.sizeVertex → degreeBelow k g v = .ok (p v))
    (hiso : ∀ v, v < g.sizeVertex → p v = true → g.degree v = .ok 0) :
    eraseIfLive g (degreeBelow k) = eraseIf g p := by
  obtain ⟨L, hL, hG⟩ := reach_rep hg
  have hn := hL.sizeVertex
  have key : ∀ u v, v ∈ row L u → p u = false := by
    intro u v hv
    have hu := lt_of_mem_row hv
    cases hpu : p u with
    | false => rfl
    | true =>
      have h1 := hiso u (by rw [hn]; exact hu) hpu
      rw [hL.degree hu] at h1
      simp only [Out.ok.injEq] at h1
      rw [List.length_eq_zero_iff.mp h1] at hv
      cases hv
  apply c162_partial hg _ p hp
  · intro v off' hv hlen h1 h2
    unfold degreeBelow
    have : Graph.degree ⟨g.adj, off'⟩ v = g.degree v := by
      have e1 : sizeVertex ⟨g.adj, off'⟩ = g.sizeVertex := by
        simp only [Graph.sizeVertex]
        cases h : off' <;> cases h' : g.off <;> simp_all
      simp only [Graph.degree, e1, rd, h1, h2]
    rw [this]
  · rintro u v ⟨r, hr, hv⟩
    have hu : u < L.length := by
      by_contra hc
      rw [hL.nbrs_exit (by omega)] at hr
      cases hr
    rw [hL.nbrs hu] at hr
    simp only [Out.ok.injEq] at hr
    subst hr
    exact ⟨key u v hv, key v u (hG.symm rfl u v hv)⟩

/-- The hypotheses of `c162_isolated` are met: an edge and an isolated vertex between its ends. -/
example : eraseIfLive ⟨[2, 0], [0, 1, 1, 2]⟩ (degreeBelow 1) = eraseIf ⟨[2, 0], [0, 1, 1, 2]⟩ (fun v => v == 1) :=
  c162_isolated (g := ⟨[2, 0], [0, 1, 1, 2]⟩)
    ⟨[.insert (0, 2)], by simp [Op.Valid, sizeMax], by decide⟩ 1 _ (by decide) (by decide)

end Disa.Props
