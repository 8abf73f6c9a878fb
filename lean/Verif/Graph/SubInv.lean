import Verif.Graph.SubLevels

/-! # Shrinking, creating and reordering subgraphs -/

namespace Disa
open Spec Graph

/-- `erase_if` either returns or is undefined. -/
theorem Graph.eraseIf_total {d : Bool} {g : Graph} (h : Reachable d g) (del : Nat → Bool) (hu : g.eraseIf del ≠ .ub) :
    ∃ g', g.eraseIf del = .ok g' := by
  obtain ⟨L, h1, h2⟩ := reach_rep h
  have ho : g.off = offs L := by
    rcases h1.2 with ho | ⟨_, ho⟩
    · exact ho
    · exact absurd (eraseIf_new del ho) hu
  have hs : ∀ v, v < L.length → del v = false → v < L.flatten.length := by
    intro v hv hd
    by_contra hc
    exact hu (h1.eraseIf_ub del ⟨v, hv, hd, by omega⟩)
  obtain ⟨g', h3, _⟩ := h1.eraseIf h2.range del ho hs
  exact ⟨g', h3⟩

namespace Subgraph

/-! ### Keeping entries by position -/

theorem keepAt_snoc (del : Nat → Bool) (l : List α) (a : α) :
    keepAt del (l ++ [a]) = keepAt del l ++ if del l.length then [] else [a] := by
  unfold keepAt
  rw [List.zipIdx_append, List.filter_append, List.map_append]
  cases h : del l.length <;> simp [h]

theorem keepAt_length (del : Nat → Bool) (l : List α) : (keepAt del l).length = rank del l.length := by
  induction l using List.reverseRecOn with
  | nil => rfl
  | append_singleton l a ih =>
    rw [keepAt_snoc, List.length_append, List.length_append, ih, List.length_singleton, rank_succ]
    cases del l.length <;> simp

theorem keepAt_get (del : Nat → Bool) (l : List α) {i : Nat} (hi : i < l.length) (hd : del i = false) :
    (keepAt del l)[rank del i]? = l[i]? := by
  induction l using List.reverseRecOn with
  | nil => simp at hi
  | append_singleton l a ih =>
    rw [keepAt_snoc]
    rw [List.length_append, List.length_singleton] at hi
    by_cases h : i < l.length
    · rw [List.getElem?_append_left (by rw [keepAt_length]; exact rank_lt del h hd), ih h,
        List.getElem?_append_left h]
    · have : i = l.length := by omega
      subst this
      rw [hd, List.getElem?_append_right (by rw [keepAt_length]), keepAt_length]
      simp

theorem keepAt_filter (del : Nat → Bool) (p : α → Bool) (l : List α) (h : ∀ i (hi : i < l.length), del i = p l[i]) :
    keepAt del l = l.filter (fun x => !p x) := by
  induction l using List.reverseRecOn with
  | nil => rfl
  | append_singleton l a ih =>
    rw [keepAt_snoc, List.filter_append, ih (fun i hi => by
      have := h i (by simp; omega)
      rw [this, List.getElem_append_left hi])]
    have := h l.length (by simp)
    rw [this]
    cases hp : p a <;> simp [hp]

theorem mem_keepAt {del : Nat → Bool} {l : List α} {x : α} :
    x ∈ keepAt del l ↔ ∃ i : Nat, del i = false ∧ l[i]? = some x := by
  constructor
  · intro h
    obtain ⟨j, hj, hjx⟩ := List.mem_iff_getElem.mp h
    rw [keepAt_length] at hj
    obtain ⟨i, hi, hd, rfl⟩ := rank_surj del hj
    refine ⟨i, hd, ?_⟩
    rw [← keepAt_get del l hi hd, ← hjx]
    exact List.getElem?_eq_getElem _
  · rintro ⟨i, hd, hi⟩
    have hl := (List.getElem?_eq_some_iff.mp hi).1
    rw [← keepAt_get del l hl hd] at hi
    exact List.mem_of_getElem? hi

theorem keepAt_sublist (del : Nat → Bool) (l : List α) : (keepAt del l).Sublist l := by
  unfold keepAt
  have : l = l.zipIdx.map Prod.fst := by simp
  conv => rhs; rw [this]
  exact List.filter_sublist.map _

/-! ### `remove_levels` -/

variable {parent : Graph} {S : Nat → Prop} {m c : Nat} {s : Subgraph}

theorem fill_ok {g2l0 : List Nat} (h : SubInv parent S m s) (hg : g2l0 = List.replicate parent.sizeVertex sizeMax) :
    ∃ g2l, loop s.sizeVertex s.fillStep g2l0 = .ok g2l ∧
      Scatter s.l2g (List.range s.l2g.length) g2l parent.sizeVertex := by
  have hsz : s.sizeVertex = s.l2g.length := h.size
  obtain ⟨g2l, h1, h2⟩ := loop_inv (n := s.sizeVertex) (body := s.fillStep) (s := g2l0)
    (fun (i : Nat) (g2l : List Nat) => Scatter (s.l2g.take i) (List.range i) g2l parent.sizeVertex)
    (by rw [hg]; simpa using Scatter.nil _)
    (by
      intro i g2l hi hI
      have hi' : i < s.l2g.length := by rw [← hsz]; exact hi
      have hlt := h.lt _ (List.getElem_mem hi')
      have e1 : rd s.l2g i = .ok s.l2g[i] := rd_ok hi'
      have e2 : wr g2l s.l2g[i] i = .ok (g2l.set s.l2g[i] i) := wr_ok (by rw [hI.len]; exact hlt)
      refine ⟨g2l.set s.l2g[i] i, by simp only [fillStep, localGlobal, hi, decide_true, assert_true, Out.ok_bind, e1, e2], ?_⟩
      rw [take_succ' hi', List.range_succ]
      exact hI.snoc hlt (notMem_take h.nodup hi'))
  rw [hsz, List.take_of_length_le (Nat.le_refl _)] at h2
  exact ⟨g2l, h1, h2⟩

/-- The subgraph `remove_levels` leaves behind when `erase_if` returns. -/
theorem remove_inv (h : SubInv parent S m s) (hf : Full parent S c s) {M : Nat} (hcM : M ≤ c) {g : Graph}
    (he : s.graph.eraseIf (fun v => decide (s.lev.getD v 0 > M)) = .ok g) :
    SubInv parent S M ⟨g, keepAt (fun v => decide (s.lev.getD v 0 > M)) s.l2g,
      if M != 0 then s.lev.filter (fun k => !decide (k > M)) else [], s.hashParent⟩ := by
  generalize hdel : (fun v => decide (s.lev.getD v 0 > M)) = del at he
  obtain ⟨L, h1, h2⟩ := reach_rep h.reach
  have h3 := h1.eraseIf_of_ok h2.range he
  have hreach : Reachable false g := Graph.Reachable.step h.reach (op := .eraseIf del) trivial he
  have hL : L.length = s.l2g.length := by rw [← h1.sizeVertex]; exact h.size
  have hdl : ∀ i (hi : i < s.lev.length), del i = decide (s.lev[i] > M) := by
    intro i hi; rw [← hdel]; simp [hi]
  have hfilt : s.lev.filter (fun k => !decide (k > M)) = keepAt del s.lev :=
    (keepAt_filter del (fun k => decide (k > M)) s.lev hdl).symm
  have hlt : ∀ v ∈ keepAt del s.l2g, v < parent.sizeVertex := fun v hv => h.lt v ((keepAt_sublist _ _).subset hv)
  have hmem : ∀ v, v ∈ keepAt del s.l2g ↔ ∃ k, k ≤ M ∧ IsDist (Adj parent) S v k := by
    intro v
    rw [mem_keepAt]
    constructor
    · rintro ⟨i, hd, hi⟩
      have hil := (List.getElem?_eq_some_iff.mp hi).1
      have hil' : i < s.lev.length := by rw [hf.len]; exact hil
      have := hf.dist i v s.lev[i] hi (List.getElem?_eq_getElem hil')
      rw [hdl i hil'] at hd
      simp only [decide_eq_false_iff_not] at hd
      exact ⟨_, by omega, this⟩
    · rintro ⟨k, hk, hd⟩
      have hv := mem_of_le h hf hd (by omega)
      obtain ⟨j, k', h5, h6, h7, _⟩ := lev_of_mem hf hv
      have := hd.unique h7
      subst this
      refine ⟨j, ?_, h5⟩
      have hjl := (List.getElem?_eq_some_iff.mp h6).1
      rw [hdl j hjl]
      have : s.lev[j] = k := (List.getElem?_eq_some_iff.mp h6).2
      simp only [decide_eq_false_iff_not]; omega
  refine ⟨hreach, ?_, (keepAt_sublist _ _).nodup h.nodup, hlt, hmem, ?_, ?_⟩
  · simp only
    rw [h3.sizeVertex, eraseRows_length, keepAt_length, hL]
  · intro i j u v hu hv
    simp only at hu hv ⊢
    have hi := (List.getElem?_eq_some_iff.mp hu).1
    have hj := (List.getElem?_eq_some_iff.mp hv).1
    rw [keepAt_length] at hi hj
    obtain ⟨a, ha, hda, rfl⟩ := rank_surj del hi
    obtain ⟨b, hb, hdb, rfl⟩ := rank_surj del hj
    rw [keepAt_get del s.l2g ha hda] at hu
    rw [keepAt_get del s.l2g hb hdb] at hv
    rw [h3.adj_iff, mem_eraseRows (by omega) hda hdb, ← h1.adj_iff]
    exact h.adj a b u v hu hv
  · simp only
    by_cases hM : M = 0
    · left
      subst hM
      refine ⟨by simp, ?_⟩
      intro v hv
      obtain ⟨k, hk, hd⟩ := (hmem v).mp hv
      have : k = 0 := by omega
      subst this
      exact isDist_zero.mp hd
    · right
      rw [if_pos (by simpa using hM), hfilt]
      refine ⟨by rw [keepAt_length, keepAt_length, hf.len], ?_⟩
      intro i v k hv hk
      have hi := (List.getElem?_eq_some_iff.mp hv).1
      rw [keepAt_length] at hi
      obtain ⟨a, ha, hda, rfl⟩ := rank_surj del hi
      rw [keepAt_get del s.l2g ha hda] at hv
      rw [keepAt_get del s.lev (by rw [hf.len]; exact ha) hda] at hk
      exact hf.dist a v k hv hk

theorem removeLevels_eq (h : SubInv parent S m s) (hf : Full parent S c s) {M : Nat} (hcM : M ≤ c) (gl : Option (List Nat)) :
    (∃ g s' gl', s.graph.eraseIf (fun v => decide (s.lev.getD v 0 > M)) = .ok g ∧
      s.removeLevels parent M gl = .ok (s', gl') ∧ SubInv parent S M s' ∧ s'.hashParent = s.hashParent ∧
      (gl = none → gl' = none) ∧
      (gl.isSome → ∃ x, gl' = some x ∧ Scatter s'.l2g (List.range s'.l2g.length) x parent.sizeVertex)) ∨
    (∃ e : Out (Subgraph × Option (List Nat)), (∀ p, e ≠ .ok p) ∧ s.removeLevels parent M gl = e ∧
      (e = .ub ↔ s.graph.eraseIf (fun v => decide (s.lev.getD v 0 > M)) = .ub) ∧
      ∀ g, s.graph.eraseIf (fun v => decide (s.lev.getD v 0 > M)) ≠ .ok g) := by
  have hc : ¬ (s.lev.length < s.sizeVertex ∨ s.lev.length < s.l2g.length) := by
    have : s.sizeVertex = s.l2g.length := h.size
    rw [hf.len, this]; omega
  unfold removeLevels
  rw [if_neg hc]
  dsimp only
  cases he : s.graph.eraseIf (fun v => decide (s.lev.getD v 0 > M)) with
  | ok g =>
    left
    have hI := remove_inv h hf hcM he
    cases gl with
    | none => exact ⟨g, _, none, rfl, rfl, hI, rfl, fun _ => rfl, by simp⟩
    | some x =>
      obtain ⟨y, hy, hys⟩ := fill_ok hI rfl
      refine ⟨g, _, some y, rfl, ?_, hI, rfl, by simp, fun _ => ⟨y, rfl, hys⟩⟩
      simp only [Out.ok_bind]
      rw [hy]
      rfl
  | exit k => exact .inr ⟨.exit k, by simp, rfl, by simp, by simp⟩
  | throw => exact .inr ⟨.throw, by simp, rfl, by simp, by simp⟩
  | ub => exact .inr ⟨.ub, by simp, rfl, by simp, by simp⟩
  | diverge => exact .inr ⟨.diverge, by simp, rfl, by simp, by simp⟩

/-! ### `update_levels` -/

theorem hash_ok {g : Graph} (h : Reachable false g) (hf : Nat → Nat) : ∃ x, g.hash hf false = .ok x := by
  obtain ⟨L, h1, h2⟩ := reach_rep h
  unfold Graph.hash
  rw [h1.empty]
  by_cases hL : L.length = 0
  · rw [decide_eq_true hL]; exact ⟨0, rfl⟩
  · rw [decide_eq_false hL]
    have e1 : g.front = .ok (row L 0) := by
      unfold Graph.front; rw [h1.empty, decide_eq_false hL]
      simp only [Bool.not_false, assert_true, Out.ok_bind]
      exact h1.nbrs (by omega)
    have e2 : g.back = .ok (row L (L.length - 1)) := by
      unfold Graph.back; rw [h1.empty, decide_eq_false hL, h1.sizeVertex, usub_of_le (by omega)]
      simp only [Bool.not_false, assert_true, Out.ok_bind]
      exact h1.nbrs (by omega)
    simp only [Bool.false_eq_true, if_false, e1, e2, Out.ok_bind, Out.pure_eq]
    exact ⟨_, rfl⟩

theorem updateLevels_eq (hp : Reachable false parent) (hf : Nat → Nat) {x : Nat} (hx : parent.hash hf false = .ok x)
    (hpar : s.hashParent = x) (M : Nat) (gl : Option (List Nat)) :
    s.updateLevels hf parent M gl = if s.curMax < M then (do
      let (s', mp) ← s.fill.addLevels parent M s.curMax
      pure (s', if gl.isSome then some mp else none)) else s.fill.removeLevels parent M gl := by
  unfold updateLevels curMax fill
  rw [hx, hpar]
  simp only [Out.ok_bind, beq_self_eq_true, assert_true]

/-- Whenever `update_levels` returns, the subgraph has the requested levels. -/
theorem updateLevels_inv (hp : Reachable false parent)
    (h : SubInv parent S m s) (hf : Nat → Nat) {x : Nat} (hx : parent.hash hf false = .ok x) (hpar : s.hashParent = x)
    {M : Nat} (hM : M < sizeMax) {gl gl' : Option (List Nat)} {s' : Subgraph}
    (hu : s.updateLevels hf parent M gl = .ok (s', gl')) :
    SubInv parent S M s' ∧ s'.hashParent = x ∧ (gl = none → gl' = none) ∧
      (gl.isSome → ∃ y, gl' = some y ∧ Scatter s'.l2g (List.range s'.l2g.length) y parent.sizeVertex) := by
  have hn := reach_small hp
  rw [updateLevels_eq hp hf hx hpar] at hu
  obtain ⟨hi, hfull⟩ := h.fill
  have hh : s.fill.hashParent = x := by unfold fill; split <;> exact hpar
  by_cases hc : s.curMax < M
  · rw [if_pos hc] at hu
    by_cases hs : 0 < parent.sizeVertex ∧ ∀ k ∈ s.fill.lev, k + 1 < parent.sizeVertex
    · obtain ⟨s1, g2l, h1, h2, h3, h4, _⟩ := addLevels_ok hp hs.1 hi hfull hc hM hs.2
      rw [h1] at hu
      simp only [Out.ok_bind, Out.pure_eq, Out.ok.injEq, Prod.mk.injEq] at hu
      obtain ⟨rfl, rfl⟩ := hu
      refine ⟨h2, h3.trans hh, ?_, ?_⟩
      · rintro rfl; rfl
      · intro hs; rw [hs]; exact ⟨g2l, rfl, h4⟩
    · rw [addLevels_exit hp hi hfull (by
        rw [not_and_or] at hs
        rcases hs with hs | hs
        · exact .inl (by omega)
        · simp only [not_forall] at hs
          obtain ⟨k, hk, hk2⟩ := hs
          exact .inr ⟨k, hk, by omega⟩)] at hu
      simp at hu
  · rw [if_neg hc] at hu
    rcases removeLevels_eq hi hfull (by omega : M ≤ s.curMax) gl with ⟨g, s1, gl1, _, h1, h2, h3, h4, h5⟩ | ⟨e, h1, h2, _⟩
    · rw [h1] at hu
      cases hu
      exact ⟨h2, h3.trans hh, h4, h5⟩
    · rw [h2] at hu
      exact absurd hu (h1 _)

/-! ### The constructor -/

theorem uniqueCopy_length_le : ∀ l : List Nat, (uniqueCopy l).length ≤ l.length
  | [] => by simp [uniqueCopy]
  | [a] => by simp [uniqueCopy]
  | a :: b :: l => by
    have := uniqueCopy_length_le (b :: l)
    unfold uniqueCopy
    split <;> simp only [List.length_cons] at this ⊢ <;> omega

/-- The check of the constructor only compares neighbouring entries. -/
theorem uniqueCopy_length : ∀ l : List Nat, (uniqueCopy l).length = l.length ↔ l.IsChain (· ≠ ·)
  | [] => by simp [uniqueCopy]
  | [a] => by simp [uniqueCopy]
  | a :: b :: l => by
    have ih := uniqueCopy_length (b :: l)
    have hle := uniqueCopy_length_le (b :: l)
    unfold uniqueCopy
    rw [List.isChain_cons_cons]
    by_cases h : a = b
    · rw [if_pos (by simpa using h)]
      simp only [List.length_cons] at hle ⊢
      constructor
      · intro h1; omega
      · rintro ⟨h1, _⟩; exact absurd h h1
    · rw [if_neg (by simpa using h)]
      simp only [List.length_cons] at ih ⊢
      constructor
      · intro h1; exact ⟨h, ih.mp (by omega)⟩
      · rintro ⟨_, h1⟩; have := ih.mpr h1; omega

theorem index_ok {n : Nat} (part : List Nat) (hlt : ∀ v ∈ part, v < n) :
    ∃ g2l, indexPartition n part = .ok g2l ∧ g2l.length = n ∧
      (∀ v, v < n → (v ∈ part → ∃ i : Nat, part[i]? = some v ∧ g2l[v]? = some i) ∧
        (v ∉ part → g2l[v]? = some sizeMax)) := by
  unfold indexPartition
  obtain ⟨g2l, h1, h2, h3⟩ := loop_inv (n := part.length) (body := fun i g2l => do
      let v ← rd part i
      wr g2l v i) (s := List.replicate n sizeMax)
    (fun (i : Nat) (g2l : List Nat) => g2l.length = n ∧
      (∀ v, v < n → (v ∈ part.take i → ∃ i : Nat, part[i]? = some v ∧ g2l[v]? = some i) ∧
        (v ∉ part.take i → g2l[v]? = some sizeMax)))
    ⟨by simp, fun v hv => by simp [hv]⟩
    (by
      rintro i g2l hi ⟨h1, h2⟩
      have hv := hlt _ (List.getElem_mem hi)
      have e1 : rd part i = .ok part[i] := rd_ok hi
      have e2 : wr g2l part[i] i = .ok (g2l.set part[i] i) := wr_ok (by rw [h1]; exact hv)
      refine ⟨g2l.set part[i] i, by simp only [e1, Out.ok_bind, e2], by simp [h1], ?_⟩
      intro v hvn
      rw [take_succ' hi]
      by_cases hvi : part[i] = v
      · refine ⟨fun _ => ⟨i, by rw [List.getElem?_eq_getElem hi, hvi], ?_⟩, fun hc => absurd (by simp [hvi]) hc⟩
        rw [← hvi, List.getElem?_set_self (by rw [h1]; exact hv)]
      · rw [List.getElem?_set_ne hvi]
        constructor
        · intro hm
          rcases List.mem_append.mp hm with hm | hm
          · exact (h2 v hvn).1 hm
          · exact absurd (List.mem_singleton.mp hm).symm hvi
        · intro hm
          exact (h2 v hvn).2 (fun hc => hm (List.mem_append_left _ hc)))
  rw [List.take_of_length_le (Nat.le_refl _)] at h3
  exact ⟨g2l, h1, h2, h3⟩

/-- What the constructor does before the levels are added. -/
theorem make_eq (hp : Reachable false parent) (hf : Nat → Nat) {x : Nat}
    (hx : parent.hash hf false = .ok x) {part : List Nat} (hc : part.IsChain (· ≠ ·)) (hl : part.length ≤ parent.sizeVertex)
    (hlt : ∀ v ∈ part, v < parent.sizeVertex) (extra : Nat) :
    ∃ del : Nat → Bool, ∃ g2l : List Nat, (∀ v, v < parent.sizeVertex → (del v = false ↔ v ∈ part)) ∧
      make hf parent part extra = (do
        let g ← parent.eraseIf del
        let s : Subgraph := ⟨g, part, [], x⟩
        if extra != 0 then
          let (s, _) ← s.updateLevels hf parent extra (some g2l)
          pure s
        else pure s) := by
  have hn := reach_small hp
  obtain ⟨g2l, h1, h2, h3⟩ := index_ok part hlt
  refine ⟨fun v => g2l.getD v sizeMax == sizeMax, g2l, ?_, ?_⟩
  · intro v hv
    dsimp only
    by_cases hm : v ∈ part
    · obtain ⟨i, hi, hg⟩ := (h3 v hv).1 hm
      have := (List.getElem?_eq_some_iff.mp hi).1
      have hgd : g2l.getD v sizeMax = i := by simp [hg]
      rw [hgd]
      constructor
      · intro _; exact hm
      · intro _
        have : i ≠ sizeMax := by omega
        simpa using this
    · have hg := (h3 v hv).2 hm
      have hgd : g2l.getD v sizeMax = sizeMax := by simp [hg]
      rw [hgd]
      simp [hm]
  · unfold make
    have e1 : ((uniqueCopy part).length == part.length) = true := by
      rw [beq_iff_eq, uniqueCopy_length]; exact hc
    have e2 : (part.all fun v => v < parent.sizeVertex) = true := by
      rw [List.all_eq_true]; intro v hv; simpa using hlt v hv
    have e3 : (decide (part.length ≤ parent.sizeVertex)) = true := decide_eq_true hl
    simp only [e1, e2, e3, assert_true, Out.ok_bind, hx, h1]

/-- The constructor rejects everything else. -/
theorem make_exit (hf : Nat → Nat) {part : List Nat} {extra : Nat}
    (hbad : ¬ part.IsChain (· ≠ ·) ∨ parent.sizeVertex < part.length ∨ ∃ v ∈ part, parent.sizeVertex ≤ v) :
    make hf parent part extra = .exit 1 := by
  unfold make
  by_cases h1 : part.IsChain (· ≠ ·)
  · have e1 : ((uniqueCopy part).length == part.length) = true := by
      rw [beq_iff_eq, uniqueCopy_length]; exact h1
    rw [e1]
    by_cases h2 : part.length ≤ parent.sizeVertex
    · have e3 : (decide (part.length ≤ parent.sizeVertex)) = true := decide_eq_true h2
      rw [e3]
      have e2 : (part.all fun v => v < parent.sizeVertex) = false := by
        rw [List.all_eq_false]
        rcases hbad with hb | hb | ⟨v, hv, hvn⟩
        · exact absurd h1 hb
        · omega
        · exact ⟨v, hv, by simpa using hvn⟩
      rw [e2]
      rfl
    · have e3 : (decide (part.length ≤ parent.sizeVertex)) = false := decide_eq_false h2
      rw [e3]
      rfl
  · have e1 : ((uniqueCopy part).length == part.length) = false := by
      rw [beq_eq_false_iff_ne, Ne, uniqueCopy_length]; exact h1
    rw [e1]
    rfl

theorem sorted_chain {part : List Nat} (h : part.Pairwise (· < ·)) : part.IsChain (· ≠ ·) :=
  (h.imp (fun h => Nat.ne_of_lt h)).isChain

theorem sorted_length {part : List Nat} {n : Nat} (h : part.Pairwise (· < ·)) (hlt : ∀ v ∈ part, v < n) : part.length ≤ n := by
  have hnd : part.Nodup := h.imp (fun h => Nat.ne_of_lt h)
  have := (hnd.subperm (fun v hv => List.mem_range.mpr (hlt v hv) : part ⊆ List.range n)).length_le
  simpa using this

/-- Strictly increasing lists with the same elements are equal. -/
theorem sorted_kept {part : List Nat} {n : Nat} {del : Nat → Bool} (h : part.Pairwise (· < ·)) (hlt : ∀ v ∈ part, v < n)
    (hd : ∀ v, v < n → (del v = false ↔ v ∈ part)) : kept del n = part := by
  apply List.Perm.eq_of_pairwise (le := (· < ·))
  · intro a b _ _ h1 h2; exact absurd h1 (Nat.lt_asymm h2)
  · exact kept_sorted del n
  · exact h
  · rw [List.perm_ext_iff_of_nodup ((kept_sorted del n).imp (fun h => Nat.ne_of_lt h)) (h.imp (fun h => Nat.ne_of_lt h))]
    intro a
    rw [mem_kept]
    constructor
    · rintro ⟨h1, h2⟩; exact (hd a h1).mp h2
    · intro h1; exact ⟨hlt a h1, (hd a (hlt a h1)).mpr h1⟩

/-- The graph after `erase_if` and the list of kept vertices satisfy the invariant. -/
theorem make_inv (hp : Reachable false parent) {part : List Nat} (h : part.Pairwise (· < ·))
    (hlt : ∀ v ∈ part, v < parent.sizeVertex) {del : Nat → Bool}
    (hd : ∀ v, v < parent.sizeVertex → (del v = false ↔ v ∈ part)) {g : Graph} (he : parent.eraseIf del = .ok g) (x : Nat) :
    SubInv parent (· ∈ part) 0 ⟨g, part, [], x⟩ := by
  obtain ⟨P, h1, h2⟩ := reach_rep hp
  have h3 := h1.eraseIf_of_ok h2.range he
  have hreach : Reachable false g := Graph.Reachable.step hp (op := .eraseIf del) trivial he
  have hk := sorted_kept h hlt hd
  have hnd : part.Nodup := h.imp (fun h => Nat.ne_of_lt h)
  have hidx : ∀ (i u : Nat), part[i]? = some u → u < P.length ∧ del u = false ∧ rank del u = i := by
    intro i u hu
    have hm := List.mem_of_getElem? hu
    have hul := hlt u hm
    have hdu := (hd u hul).mpr hm
    have := kept_getElem? del hul hdu
    rw [hk] at this
    refine ⟨by rw [← h1.sizeVertex]; exact hul, hdu, ?_⟩
    have hi := (List.getElem?_eq_some_iff.mp hu)
    have hj := (List.getElem?_eq_some_iff.mp this)
    exact (List.Nodup.getElem_inj_iff hnd).mp (hj.2.trans hi.2.symm)
  refine ⟨hreach, ?_, hnd, hlt, ?_, ?_, .inl ⟨rfl, fun v hv => hv⟩⟩
  · simp only
    rw [h3.sizeVertex, eraseRows_length, ← h1.sizeVertex, ← kept_length, hk]
  · intro v
    simp only
    constructor
    · intro hv; exact ⟨0, Nat.le_refl _, isDist_zero.mpr hv⟩
    · rintro ⟨k, hk, hdk⟩
      have : k = 0 := by omega
      subst this
      exact isDist_zero.mp hdk
  · intro i j u v hu hv
    simp only at hu hv ⊢
    obtain ⟨a1, a2, a3⟩ := hidx i u hu
    obtain ⟨b1, b2, b3⟩ := hidx j v hv
    rw [← a3, ← b3, h3.adj_iff, mem_eraseRows a1 a2 b2, ← h1.adj_iff]

/-! ### What the invariant says about the public functions -/

theorem SubInv.spec (h : SubInv parent S m s) : IsLevelSubgraph parent S m s (fun i => s.l2g.getD i 0) := by
  have hsz : s.sizeVertex = s.l2g.length := h.size
  have hget : ∀ i, i < s.sizeVertex → s.l2g[i]? = some (s.l2g.getD i 0) := by
    intro i hi
    have : i < s.l2g.length := by omega
    simp [this]
  have hlev : ∀ i, i < s.sizeVertex → ∃ k, s.vertexLevel i = .ok k ∧ IsDist (Adj parent) S (s.l2g.getD i 0) k ∧
      s.isLocal i = .ok (k == 0) := by
    intro i hi
    unfold vertexLevel isLocal
    simp only [hi, decide_true, assert_true, Out.ok_bind]
    have hall : s.lev = [] → ∀ v ∈ s.l2g, S v := by
      intro hl
      rcases h.lev with ⟨_, h1⟩ | ⟨h1, _⟩
      · exact h1
      · intro v hv
        have : s.l2g = [] := by apply List.eq_nil_of_length_eq_zero; rw [← h1, hl]; rfl
        rw [this] at hv; simp at hv
    by_cases hl : s.lev = []
    · rw [hl]
      exact ⟨0, rfl, isDist_zero.mpr (hall hl _ (List.mem_of_getElem? (hget i hi))), rfl⟩
    · have he : s.lev.isEmpty = false := by simpa using hl
      rw [he]
      rcases h.lev with ⟨h1, _⟩ | ⟨h1, h2⟩
      · exact absurd h1 hl
      · have hil : i < s.lev.length := by omega
        refine ⟨s.lev[i], ?_, h2 i _ _ (hget i hi) (List.getElem?_eq_getElem hil), ?_⟩
        · simp only [Bool.false_eq_true, if_false]; exact rd_ok hil
        · simp only [Bool.false_eq_true, if_false, rd_ok hil, Out.ok_bind, Out.pure_eq]
  refine ⟨?_, ?_, ?_, ?_, ?_, ?_⟩
  · intro i hi
    unfold localGlobal
    simp only [hi, decide_true, assert_true, Out.ok_bind]
    exact rd_of_some (hget i hi)
  · intro i j hi hj hij
    have h1 := hget i hi
    have h2 := hget j hj
    rw [← hij] at h2
    have hi' := List.getElem?_eq_some_iff.mp h1
    have hj' := List.getElem?_eq_some_iff.mp h2
    exact (List.Nodup.getElem_inj_iff h.nodup).mp (hi'.2.trans hj'.2.symm)
  · intro v
    rw [← h.mem]
    constructor
    · rintro ⟨i, hi, rfl⟩; exact List.mem_of_getElem? (hget i hi)
    · intro hv
      obtain ⟨i, hi, hiv⟩ := List.mem_iff_getElem.mp hv
      exact ⟨i, by omega, by simp [hi, hiv]⟩
  · intro i j hi hj; exact h.adj i j _ _ (hget i hi) (hget j hj)
  · intro i hi
    obtain ⟨k, h1, h2, _⟩ := hlev i hi
    exact ⟨k, h1, h2⟩
  · intro i hi
    obtain ⟨k, h1, h2, h3⟩ := hlev i hi
    refine ⟨_, h3, ?_⟩
    rw [beq_iff_eq]
    constructor
    · rintro rfl; exact isDist_zero.mp h2
    · intro hs; exact h2.unique (isDist_zero.mpr hs)

theorem Scatter.spec (h : SubInv parent S m s) {x : List Nat}
    (hx : Scatter s.l2g (List.range s.l2g.length) x parent.sizeVertex) : IsGlobalLocal parent s x := by
  have hsz : s.sizeVertex = s.l2g.length := h.size
  have key : ∀ (i v : Nat), s.localGlobal i = .ok v ↔ s.l2g[i]? = some v := by
    intro i v
    unfold localGlobal
    by_cases hi : i < s.sizeVertex
    · simp only [hi, decide_true, assert_true, Out.ok_bind]
      have hi' : i < s.l2g.length := by omega
      rw [rd_ok hi', List.getElem?_eq_getElem hi']
      simp
    · have hi' : ¬ i < s.l2g.length := by omega
      simp [hi, hi', assert]
  refine ⟨hx.len, ?_, ?_⟩
  · intro i v hv
    rw [key] at hv
    have := (List.getElem?_eq_some_iff.mp hv).1
    exact hx.val i v i hv (by simp [this])
  · intro v hv hno
    apply hx.other v hv
    intro hm
    obtain ⟨i, hi, hiv⟩ := List.mem_iff_getElem.mp hm
    exact hno i ((key i v).mpr (by rw [List.getElem?_eq_getElem hi, hiv]))

/-! ### `reorder` -/

theorem reorder_inv (h : SubInv parent S m s) {perm : List Nat} (hperm : perm.Perm (List.range s.sizeVertex)) :
    ∃ s', s.reorder perm = .ok (s', ⟨s.graph, s.l2g, s.lev, 0⟩) ∧ SubInv parent S m s' ∧ s'.hashParent = s.hashParent ∧
      ∀ (i p v : Nat), perm[i]? = some p → s.l2g[i]? = some v → s'.l2g[p]? = some v := by
  have hsz : s.sizeVertex = s.l2g.length := h.size
  obtain ⟨L, h1, h2⟩ := reach_rep h.reach
  have hL : L.length = s.l2g.length := by rw [← h1.sizeVertex]; exact h.size
  have hP : IsPerm perm L.length := by rw [hL, ← hsz]; exact hperm
  obtain ⟨g', h3, h4⟩ := h1.reorder h2.range hP
  have hlen : perm.length = s.l2g.length := by rw [hP.length, hL]
  have hreach : Reachable false g' := Graph.Reachable.step h.reach (op := .reorder perm) (by
    show perm.Perm (List.range perm.length)
    rw [hlen, ← hsz]; exact hperm) (by simp [step, h3])
  have hsz' : g'.sizeVertex = s.l2g.length := by rw [h4.sizeVertex, reorderRows_length, hL]
  -- the loop
  have hlevlen : s.lev ≠ [] → s.lev.length = s.l2g.length := by
    intro hl
    rcases h.lev with ⟨h1, _⟩ | ⟨h1, _⟩
    · exact absurd h1 hl
    · exact h1
  have hinj : ∀ (i j p : Nat), perm[i]? = some p → perm[j]? = some p → i = j := by
    intro i j p hi hj
    have hi' := List.getElem?_eq_some_iff.mp hi
    have hj' := List.getElem?_eq_some_iff.mp hj
    exact (List.Nodup.getElem_inj_iff hP.nodup).mp (hi'.2.trans hj'.2.symm)
  obtain ⟨⟨l, lv⟩, k1, k2, k3, k4, k5⟩ := loop_inv (n := s.l2g.length) (body := s.reorderStep perm)
    (s := (List.replicate perm.length 0, List.replicate (if s.lev.isEmpty then 0 else perm.length) 0))
    (fun (i : Nat) (st : List Nat × List Nat) => st.1.length = s.l2g.length ∧ st.2.length = s.lev.length ∧
      (∀ (j p : Nat), j < i → perm[j]? = some p → st.1[p]? = s.l2g[j]?) ∧
      (s.lev ≠ [] → ∀ (j p : Nat), j < i → perm[j]? = some p → st.2[p]? = s.lev[j]?))
    ⟨by simp [hlen], by
        by_cases hl : s.lev = []
        · simp [hl]
        · have he : s.lev.isEmpty = false := by simpa using hl
          simp [he, hlen, hlevlen hl], by intro j p hj; omega, by intro _ j p hj; omega⟩
    (by
      rintro i ⟨l, lv⟩ hi ⟨k1, k2, k3, k4⟩
      simp only at k1 k2 k3 k4
      have hip : i < perm.length := by omega
      have hpi : perm[i]? = some perm[i] := List.getElem?_eq_getElem hip
      have hpl : perm[i] < s.l2g.length := by
        have := (hP.mem (x := perm[i])).mp (List.getElem_mem hip)
        omega
      have e1 : rd perm i = .ok perm[i] := rd_ok hip
      have e2 : rd s.l2g i = .ok s.l2g[i] := rd_ok hi
      have e3 : wr l perm[i] s.l2g[i] = .ok (l.set perm[i] s.l2g[i]) := wr_ok (by rw [k1]; exact hpl)
      have new1 : ∀ (j p : Nat), j < i + 1 → perm[j]? = some p → (l.set perm[i] s.l2g[i])[p]? = s.l2g[j]? := by
        intro j p hj hp
        by_cases hji : j = i
        · subst hji
          rw [hpi] at hp
          cases hp
          rw [List.getElem?_set_self (by rw [k1]; exact hpl), List.getElem?_eq_getElem hi]
        · have hne : perm[i] ≠ p := by
            intro e
            exact hji (hinj j i p hp (by rw [hpi, e]))
          rw [List.getElem?_set_ne hne]
          exact k3 j p (by omega) hp
      unfold reorderStep
      simp only [e1, e2, e3, Out.ok_bind]
      by_cases hl : s.lev = []
      · rw [if_neg (by simp [hl])]
        exact ⟨_, rfl, by simp [k1], k2, new1, fun hc => absurd hl hc⟩
      · have he : s.lev.isEmpty = false := by simpa using hl
        rw [if_pos (by simp [he])]
        have hil : i < s.lev.length := by rw [hlevlen hl]; exact hi
        have e4 : rd s.lev i = .ok s.lev[i] := rd_ok hil
        have e5 : wr lv perm[i] s.lev[i] = .ok (lv.set perm[i] s.lev[i]) := wr_ok (by rw [k2, hlevlen hl]; exact hpl)
        rw [e4, Out.ok_bind, e5]
        refine ⟨_, rfl, by simp [k1], by simp [k2], new1, ?_⟩
        intro _ j p hj hp
        simp only
        by_cases hji : j = i
        · subst hji
          rw [hpi] at hp
          cases hp
          rw [List.getElem?_set_self (by rw [k2, hlevlen hl]; exact hpl), List.getElem?_eq_getElem hil]
        · have hne : perm[i] ≠ p := by
            intro e
            exact hji (hinj j i p hp (by rw [hpi, e]))
          rw [List.getElem?_set_ne hne]
          exact k4 hl j p (by omega) hp)
  simp only at k2 k3 k4 k5
  -- every position is the image of one
  have hsurj : ∀ p, p < s.l2g.length → ∃ i : Nat, i < s.l2g.length ∧ perm[i]? = some p := by
    intro p hp
    obtain ⟨i, hi, hip⟩ := List.mem_iff_getElem.mp ((hP.mem (x := p)).mpr (by omega))
    exact ⟨i, by omega, by rw [List.getElem?_eq_getElem hi, hip]⟩
  have hback : ∀ (p v : Nat), l[p]? = some v → ∃ i : Nat, i < s.l2g.length ∧ perm[i]? = some p ∧ s.l2g[i]? = some v := by
    intro p v hp
    have hpl := (List.getElem?_eq_some_iff.mp hp).1
    obtain ⟨i, hi, hip⟩ := hsurj p (by omega)
    exact ⟨i, hi, hip, by rw [← k4 i p hi hip]; exact hp⟩
  have hmem : ∀ v, v ∈ l ↔ v ∈ s.l2g := by
    intro v
    constructor
    · intro hv
      obtain ⟨p, hp, hpv⟩ := List.mem_iff_getElem.mp hv
      obtain ⟨i, _, _, hi⟩ := hback p v (by rw [List.getElem?_eq_getElem hp, hpv])
      exact List.mem_of_getElem? hi
    · intro hv
      obtain ⟨i, hi, hiv⟩ := List.mem_iff_getElem.mp hv
      have hip : i < perm.length := by omega
      have := k4 i perm[i] hi (List.getElem?_eq_getElem hip)
      rw [List.getElem?_eq_getElem hi, hiv] at this
      exact List.mem_of_getElem? this
  refine ⟨⟨g', l, lv, s.hashParent⟩, ?_, ⟨hreach, by rw [k2]; exact hsz', ?_, ?_, ?_, ?_, ?_⟩, rfl, ?_⟩
  · unfold reorder
    rw [h3]
    simp only [Out.ok_bind, hsz', k1]
    rfl
  · show l.Nodup
    rw [List.nodup_iff_injective_getElem]
    rintro ⟨a, ha⟩ ⟨b, hb⟩ hab
    simp only at hab
    obtain ⟨i, hi, hip, hiv⟩ := hback a l[a] (List.getElem?_eq_getElem ha)
    obtain ⟨j, hj, hjp, hjv⟩ := hback b l[b] (List.getElem?_eq_getElem hb)
    rw [← hab] at hjv
    have hi' := List.getElem?_eq_some_iff.mp hiv
    have hj' := List.getElem?_eq_some_iff.mp hjv
    have : i = j := (List.Nodup.getElem_inj_iff h.nodup).mp (hi'.2.trans hj'.2.symm)
    subst this
    rw [hip] at hjp
    have : a = b := Option.some.inj hjp
    subst this
    rfl
  · intro v hv; exact h.lt v ((hmem v).mp hv)
  · intro v; rw [← h.mem]; exact hmem v
  · intro i j u v hu hv
    obtain ⟨a, ha, hap, hau⟩ := hback i u hu
    obtain ⟨b, hb, hbp, hbv⟩ := hback j v hv
    rw [← h.adj a b u v hau hbv, h1.adj_iff, h4.adj_iff]
    have ea : pat perm a = i := by
      obtain ⟨x, y⟩ := List.getElem?_eq_some_iff.mp hap
      rw [pat_eq x, y]
    have eb : pat perm b = j := by
      obtain ⟨x, y⟩ := List.getElem?_eq_some_iff.mp hbp
      rw [pat_eq x, y]
    rw [← ea, ← eb]
    exact mem_reorderRows hP h2.range (by omega) (by omega)
  · simp only
    by_cases hl : s.lev = []
    · left
      refine ⟨by apply List.eq_nil_of_length_eq_zero; rw [k3, hl]; rfl, ?_⟩
      intro v hv
      rcases h.lev with ⟨_, h5⟩ | ⟨h5, _⟩
      · exact h5 v ((hmem v).mp hv)
      · have : s.l2g = [] := by apply List.eq_nil_of_length_eq_zero; rw [← h5, hl]; rfl
        rw [hmem, this] at hv; simp at hv
    · right
      refine ⟨by rw [k3, k2, hlevlen hl], ?_⟩
      intro p v k hv hk
      obtain ⟨a, ha, hap, hau⟩ := hback p v hv
      rw [k5 hl a p ha hap] at hk
      rcases h.lev with ⟨h5, _⟩ | ⟨_, h5⟩
      · exact absurd h5 hl
      · exact h5 a v k hau hk
  · intro i p v hp hv
    have := (List.getElem?_eq_some_iff.mp hv).1
    simp only
    rw [k4 i p this hp]
    exact hv

end Subgraph
end Disa
