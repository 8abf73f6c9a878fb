import Verif.Graph.Levels

/-! # Eccentricities -/

namespace Disa
open Spec
namespace Graph

/-- Loop invariant of `eccStep` with the default stop. -/
structure EInv (L : List (List Nat)) (start : Nat) (s : List Nat × List Nat) : Prop where
  len : s.2.length = L.length
  bfs : ∃ out, BInv (rowRel L) (· = start) sizeMax (fun v => ∃ k, k ≠ sizeMax ∧ s.2[v]? = some k) out s.1
  val : ∀ (v k : Nat), s.2[v]? = some k → k ≠ sizeMax → IsDist (rowRel L) (· = start) v k

theorem eccStep_inv {d : Bool} {g : Graph} {L : List (List Nat)} (hr : g.Rep L) (hg : Good d L) (hn : L.length < sizeMax)
    {start : Nat} (hst : start < L.length) {s : List Nat × List Nat} (h : EInv L start s)
    (hc : (!s.1.isEmpty) = true) :
    ∃ s', g.eccStep sizeMax s = .ok s' ∧ EInv L start s' ∧
      s'.1.length + unsetCount isMax s'.2 < s.1.length + unsetCount isMax s.2 := by
  obtain ⟨q, m⟩ := s
  obtain ⟨hlen, ⟨out, hb⟩, hval⟩ := h
  simp only at hlen hb hval hc ⊢
  cases q with
  | nil => simp at hc
  | cons f rest =>
    obtain ⟨k, hkm, hk⟩ := (hb.mem f).mpr (.inr (by simp))
    have hd := hval f k hk hkm
    have hflt : f < L.length := by
      have := (List.getElem?_eq_some_iff.mp hk).1
      rwa [hlen] at this
    have hkn : k < L.length := hd.lt_card (by rintro s rfl; exact hst) (fun u v huv => hg.range u v huv)
    unfold eccStep
    have hnf : ¬ f ≥ sizeMax := by omega
    simp only [if_neg hnf, hr.nbrs hflt, Out.ok_bind]
    have hk1 : k + 1 ≠ sizeMax := by omega
    have hfold := discover_fold (isNew := isMax) (val := nextLevel f) (b := k + 1) (by simpa [isMax] using hk1)
        (hg.nodup f) (q := rest) (m := m) (fun v hv => by rw [hlen]; exact hg.range f v hv)
        (by
          intro m' _ hm'
          have := hm' f k hk (by simpa [isMax] using hkm)
          simp only [nextLevel, rd_of_some this, Out.ok_bind, Out.pure_eq]
          rw [wrap_of_lt (by omega)])
    rw [hfold]
    have hmem : ∀ w, w ∈ fresh isMax m (row L f) ↔ rowRel L f w ∧ ¬ ∃ k, k ≠ sizeMax ∧ m[w]? = some k := by
      intro w
      rw [mem_fresh]
      unfold rowRel
      constructor
      · rintro ⟨h1, h2⟩
        refine ⟨h1, ?_⟩
        rintro ⟨j, hjm, hj⟩
        rw [hj] at h2
        simp [isMax] at h2
        exact hjm h2
      · rintro ⟨h1, h2⟩
        refine ⟨h1, ?_⟩
        have hlt : w < m.length := by rw [hlen]; exact hg.range f w h1
        rw [List.getElem?_eq_getElem hlt] at h2 ⊢
        by_cases hx : m[w] = sizeMax
        · simp [isMax, hx]
        · exact absurd ⟨_, hx, rfl⟩ h2
    have hnd : (fresh isMax m (row L f)).Nodup := (hg.nodup f).filter _
    have hb' := hb.expand hd (by omega) hnd hmem
    have hvis : (fun (v : Nat) => (∃ k, k ≠ sizeMax ∧ m[v]? = some k) ∨ v ∈ fresh isMax m (row L f)) =
        (fun (v : Nat) => ∃ j, j ≠ sizeMax ∧ (mark m (fresh isMax m (row L f)) (k + 1))[v]? = some j) := by
      funext v
      rw [mark_getElem?]
      apply propext
      by_cases hv : v ∈ fresh isMax m (row L f)
      · have hlt : v < m.length := by rw [hlen]; exact hg.range f v ((hmem v).mp hv).1
        simp [hv, hlt, hk1]
      · simp [hv]
    rw [hvis] at hb'
    refine ⟨_, rfl, ⟨by simpa using hlen, ⟨_, hb'⟩, ?_⟩, ?_⟩
    · intro v j hj hjm
      simp only [mark_getElem?] at hj
      split at hj
      · rename_i hv
        cases hj
        exact hb.dist_new hd ((hmem v).mp hv.1).1 ((hmem v).mp hv.1).2
      · exact hval v j hj hjm
    · have := unsetCount_mark (isNew := isMax) (b := k + 1) (by simpa [isMax] using hk1) (m := m) hnd
          (fun v hv => (mem_fresh.mp hv).2)
      simp only [List.length_append, List.length_cons]
      omega

theorem eccVertex_ok {d : Bool} {g : Graph} {L : List (List Nat)} (hr : g.Rep L) (hg : Good d L)
    (hn : L.length < sizeMax) {start : Nat} (hs : start < L.length) (old : List Nat) :
    ∃ out, g.eccVertex start old sizeMax = .ok out ∧ IsLevels (rowRel L) (· = start) sizeMax L.length out := by
  have hinit : resizeList (old.map fun _ => sizeMax) L.length sizeMax = List.replicate L.length sizeMax := by
    unfold resizeList
    rw [List.map_const', List.take_replicate, List.length_replicate, List.replicate_append_replicate]
    congr 1; omega
  have hget : ∀ (v : Nat), ((List.replicate L.length sizeMax).set start 0)[v]? =
      if v = start then some 0 else if v < L.length then some sizeMax else none := by
    intro v
    rw [List.getElem?_set, List.getElem?_replicate]
    by_cases h : start = v
    · subst h; simp [hs]
    · simp [h, Ne.symm h]
  have hvis : (fun (v : Nat) => ∃ k, k ≠ sizeMax ∧ ((List.replicate L.length sizeMax).set start 0)[v]? = some k) = (· = start) := by
    funext v
    apply propext
    rw [hget]
    constructor
    · rintro ⟨k, hk, h⟩
      by_contra hc
      rw [if_neg hc] at h
      split at h
      · exact hk (Option.some.inj h).symm
      · cases h
    · rintro rfl; exact ⟨0, by decide, by simp⟩
  have hI : EInv L start ([start], (List.replicate L.length sizeMax).set start 0) := by
    refine ⟨by simp, ⟨[], ?_⟩, ?_⟩
    · simp only [hvis]; exact BInv.start start _
    · intro v k hk hks
      simp only [hget] at hk
      split at hk
      · rename_i h; subst h
        rw [← Option.some.inj hk]; exact isDist_zero.mpr rfl
      · split at hk
        · exact absurd (Option.some.inj hk).symm hks
        · cases hk
  obtain ⟨⟨q, m⟩, h1, h2, h3⟩ := whileFuel_inv (cond := fun s : List Nat × List Nat => !s.1.isEmpty)
    (body := g.eccStep sizeMax) (EInv L start)
    (fun s => s.1.length + unsetCount isMax s.2) (fuel := 1 + L.length) hI
    (by have := unsetCount_le isMax ((List.replicate L.length sizeMax).set start 0); simp at this ⊢; omega)
    (fun s hs' hc => eccStep_inv hr hg hn hs hs' hc)
  obtain ⟨hlen, ⟨out, hb⟩, hval⟩ := h2
  have hq : q = [] := by simpa using h3
  subst hq
  simp only at hlen hb hval
  refine ⟨m, ?_, hlen, ?_⟩
  · unfold eccVertex
    rw [hr.empty, decide_eq_false (by omega), hr.sizeVertex]
    have h4 : wr (List.replicate L.length sizeMax) start 0 = .ok ((List.replicate L.length sizeMax).set start 0) :=
      wr_ok (by simpa using hs)
    have h5 : start ≤ sizeMax := by omega
    simp only [Bool.not_false, assert_true, Out.ok_bind, hs, decide_true, h5, beq_self_eq_true, Bool.true_or,
      if_pos (Nat.le_of_lt hn), hinit, h4, h1, Out.pure_eq]
  · intro v hv
    have hvl : v < m.length := by omega
    by_cases hx : m[v] = sizeMax
    · right
      refine ⟨by rw [List.getElem?_eq_getElem hvl, hx], ?_⟩
      intro k hk hd
      obtain ⟨j, hj, hj'⟩ := (hb.done v).mpr ⟨k, hk, hd⟩
      rw [List.getElem?_eq_getElem hvl, hx] at hj'
      exact hj (Option.some.inj hj').symm
    · left
      have hd := hval v _ (List.getElem?_eq_getElem hvl) hx
      obtain ⟨j, hj, hd'⟩ := hb.dist v ⟨m[v], hx, List.getElem?_eq_getElem hvl⟩
      exact ⟨m[v], by rw [hd.unique hd']; exact hj, hd, List.getElem?_eq_getElem hvl⟩

/-! ### The graph version -/

/-- Searching with a stop at `start + 1`: returns, or reads out of bounds. -/
def OkUb (x : Out α) : Prop := x = .ub ∨ ∃ a, x = .ok a

theorem foldlM_okub {f : σ → α → Out σ} (P : σ → Prop) {l : List α}
    (hf : ∀ s a, P s → f s a = .ub ∨ ∃ s', f s a = .ok s' ∧ P s') {s : σ} (hs : P s) :
    l.foldlM f s = .ub ∨ ∃ s', l.foldlM f s = .ok s' ∧ P s' := by
  induction l generalizing s with
  | nil => exact .inr ⟨s, rfl, hs⟩
  | cons a l ih =>
    rw [List.foldlM_cons]
    rcases hf s a hs with h | ⟨s', h, hp⟩
    · rw [h]; exact .inl rfl
    · rw [h]; exact ih hp

theorem foldlM_ub {f : σ → α → Out σ} (P : σ → Prop) {l : List α}
    (hf : ∀ s a, P s → f s a = .ub ∨ ∃ s', f s a = .ok s' ∧ P s') {s : σ} (hs : P s) {b : α} (hb : b ∈ l)
    (hbu : ∀ s, P s → f s b = .ub) : l.foldlM f s = .ub := by
  induction l generalizing s with
  | nil => simp at hb
  | cons a l ih =>
    rw [List.foldlM_cons]
    rcases List.mem_cons.mp hb with rfl | hb
    · rw [hbu s hs]; rfl
    · rcases hf s a hs with h | ⟨s', h, hp⟩
      · rw [h]; rfl
      · rw [h]; exact ih hp hb

theorem whileFuel_okub {cond : σ → Bool} {body : σ → Out σ} (I : σ → Prop) (μ : σ → Nat) {fuel : Nat} {s : σ}
    (h0 : I s) (hm : μ s ≤ fuel) (hz : ∀ s, I s → μ s = 0 → cond s = false)
    (hs : ∀ s, I s → cond s = true → body s = .ub ∨ ∃ s', body s = .ok s' ∧ I s' ∧ μ s' < μ s) :
    OkUb (whileFuel cond body fuel s) := by
  induction fuel generalizing s with
  | zero =>
    by_cases hc : cond s = true
    · exact absurd hc (by simp [hz s h0 (by omega)])
    · exact .inr ⟨s, by simp [whileFuel, hc]⟩
  | succ n ih =>
    by_cases hc : cond s = true
    · rcases hs s h0 hc with h | ⟨s1, h1, h2, h3⟩
      · exact .inl (by simp [whileFuel, hc, h])
      · rcases ih h2 (by omega) with h4 | ⟨s', h4⟩
        · exact .inl (by simp [whileFuel, hc, h1, h4])
        · exact .inr ⟨s', by simp [whileFuel, hc, h1, h4]⟩
    · exact .inr ⟨s, by simp [whileFuel, hc]⟩

/-- The search state with `n` distances; the measure is `M`. -/
structure BInB (n M : Nat) (s : List Nat × List Nat) : Prop where
  len : s.2.length = n
  q : ∀ v ∈ s.1, ∃ k, k ≠ sizeMax ∧ s.2[v]? = some k
  small : ∀ (v k : Nat), s.2[v]? = some k → k ≠ sizeMax → k + 1 + unsetCount isMax s.2 ≤ n
  meas : s.1.length + unsetCount isMax s.2 = M

theorem discover_okub {n M f : Nat} (hn : n < sizeMax) {s : List Nat × List Nat} {v : Nat} (h : BInB n M s)
    (hf : ∃ k, k ≠ sizeMax ∧ s.2[f]? = some k) :
    discover isMax (nextLevel f) s v = .ub ∨
    ∃ s', discover isMax (nextLevel f) s v = .ok s' ∧ BInB n M s' ∧ ∃ k, k ≠ sizeMax ∧ s'.2[f]? = some k := by
  obtain ⟨q, m⟩ := s
  obtain ⟨h1, h2, h3, h4⟩ := h
  simp only at h1 h2 h3 h4 hf
  obtain ⟨k, hk, hkf⟩ := hf
  by_cases hv : v < n
  · right
    have hvm : v < m.length := by omega
    unfold discover
    simp only [rd_ok hvm, Out.ok_bind]
    by_cases hx : m[v] = sizeMax
    · have hb := h3 f k hkf hk
      have hw : wrap (k + 1) = k + 1 := wrap_of_lt (by omega)
      have hnv : nextLevel f m = .ok (k + 1) := by simp [nextLevel, rd_of_some hkf, hw]
      have hmx : isMax m[v] = true := by simp [isMax, hx]
      have hk1 : k + 1 ≠ sizeMax := by omega
      have hmark : mark m [v] (k + 1) = m.set v (k + 1) := rfl
      have hcount := unsetCount_mark (isNew := isMax) (b := k + 1) (by simpa [isMax] using hk1) (m := m) (l := [v])
        (by simp) (by simp [hvm, hmx])
      rw [hmark] at hcount
      simp only [List.length_singleton] at hcount
      have hset : ∀ (w : Nat), (m.set v (k + 1))[w]? = if v = w then some (k + 1) else m[w]? := by
        intro w; rw [List.getElem?_set]; simp [hvm]
      have hkeep : ∀ (w : Nat), (∃ j, j ≠ sizeMax ∧ m[w]? = some j) → ∃ j, j ≠ sizeMax ∧ (m.set v (k + 1))[w]? = some j := by
        rintro w ⟨j, hj, hjw⟩
        rw [hset]
        by_cases hvw : v = w
        · exact ⟨k + 1, hk1, by rw [if_pos hvw]⟩
        · exact ⟨j, hj, by rw [if_neg hvw]; exact hjw⟩
      refine ⟨(q ++ [v], m.set v (k + 1)), by simp [hmx, hnv, wr_ok hvm], ⟨by simpa using h1, ?_, ?_, ?_⟩, ?_⟩
      · intro w hw
        rcases List.mem_append.mp hw with hw | hw
        · exact hkeep w (h2 w hw)
        · have : w = v := by simpa using hw
          subst this
          exact ⟨k + 1, hk1, by simp [hset]⟩
      · intro w j hj hjm
        simp only [hset] at hj ⊢
        by_cases hvw : v = w
        · rw [if_pos hvw] at hj
          have := Option.some.inj hj
          omega
        · rw [if_neg hvw] at hj
          have := h3 w j hj hjm
          omega
      · simp only [List.length_append, List.length_singleton]; omega
      · exact hkeep f ⟨k, hk, hkf⟩
    · have hmx : isMax m[v] = false := by simpa [isMax] using hx
      exact ⟨(q, m), by simp [hmx], ⟨h1, h2, h3, h4⟩, k, hk, hkf⟩
  · left
    unfold discover
    simp [rd_ub (show m.length ≤ v by omega)]

theorem eccStep_okub {d : Bool} {g : Graph} {L : List (List Nat)} (hr : g.Rep L) (hg : Good d L) {n : Nat}
    (hn : n < sizeMax) (hnL : n ≤ L.length) {s : List Nat × List Nat} (h : ∃ M, BInB n M s)
    (hc : (!s.1.isEmpty) = true) :
    g.eccStep n s = .ub ∨ ∃ s', g.eccStep n s = .ok s' ∧ (∃ M, BInB n M s') ∧
      s'.1.length + unsetCount isMax s'.2 < s.1.length + unsetCount isMax s.2 := by
  obtain ⟨q, m⟩ := s
  obtain ⟨M, h1, h2, h3, h4⟩ := h
  simp only at h1 h2 h3 h4 hc ⊢
  cases q with
  | nil => simp at hc
  | cons f rest =>
    have hf := h2 f (by simp)
    obtain ⟨k, hk, hkf⟩ := hf
    have hfn : f < n := by
      have := (List.getElem?_eq_some_iff.mp hkf).1; omega
    unfold eccStep
    have hnf : ¬ f ≥ n := by omega
    simp only [if_neg hnf, hr.nbrs (show f < L.length by omega), Out.ok_bind]
    have hstart : BInB n (rest.length + unsetCount isMax m) (rest, m) ∧ ∃ k, k ≠ sizeMax ∧ (rest, m).2[f]? = some k :=
      ⟨⟨h1, fun v hv => h2 v (by simp [hv]), h3, rfl⟩, k, hk, hkf⟩
    rcases foldlM_okub (f := discover isMax (nextLevel f))
      (fun s => BInB n (rest.length + unsetCount isMax m) s ∧ ∃ k, k ≠ sizeMax ∧ s.2[f]? = some k)
      (l := row L f) (fun s a hs => discover_okub hn hs.1 hs.2) hstart with h | ⟨s', h, hb, _⟩
    · exact .inl h
    · right
      refine ⟨s', h, ⟨_, hb⟩, ?_⟩
      have := hb.meas
      simp only [List.length_cons]
      omega

theorem ecc_init {n start : Nat} (hs : start < n) : BInB n (1 + (n - 1)) ([start], (List.replicate n sizeMax).set start 0) := by
  have hmark : mark (List.replicate n sizeMax) [start] 0 = (List.replicate n sizeMax).set start 0 := rfl
  have hcount := unsetCount_mark (isNew := isMax) (b := 0) (by decide) (m := List.replicate n sizeMax) (l := [start])
        (by simp) (by simp [hs, isMax])
  rw [hmark] at hcount
  have hall : unsetCount isMax (List.replicate n sizeMax) = n := by
    unfold unsetCount
    rw [List.countP_eq_length.mpr]
    · simp
    · intro a ha; rw [List.eq_of_mem_replicate ha]; simp [isMax]
  rw [hall] at hcount
  simp only [List.length_singleton] at hcount
  have hset : ∀ (w : Nat), ((List.replicate n sizeMax).set start 0)[w]? =
      if start = w then some 0 else (List.replicate n sizeMax)[w]? := by
    intro w; rw [List.getElem?_set]; simp [hs]
  refine ⟨by simp, ?_, ?_, by simp only [List.length_singleton]; omega⟩
  · intro v hv
    have : v = start := by simpa using hv
    subst this
    exact ⟨0, by decide, by simp [hset]⟩
  · intro v k hk hkm
    simp only [hset] at hk ⊢
    by_cases hv : start = v
    · rw [if_pos hv] at hk
      have := Option.some.inj hk
      omega
    · rw [if_neg hv, List.getElem?_replicate] at hk
      split at hk
      · exact absurd (Option.some.inj hk).symm hkm
      · cases hk

theorem ecc_resize (old : List Nat) (n : Nat) :
    resizeList (old.map fun _ => sizeMax) n sizeMax = List.replicate n sizeMax := by
  unfold resizeList
  rw [List.map_const', List.take_replicate, List.length_replicate, List.replicate_append_replicate]
  congr 1; omega

theorem eccVertex_unfold {g : Graph} {L : List (List Nat)} (hr : g.Rep L)
    {start : Nat} (hs : start < L.length) (old : List Nat) :
    g.eccVertex start old (start + 1) =
      (whileFuel (fun s : List Nat × List Nat => !s.1.isEmpty) (g.eccStep (start + 1)) (1 + L.length)
        ([start], (List.replicate (start + 1) sizeMax).set start 0) >>= fun s => .ok s.2) := by
  unfold eccVertex
  rw [hr.empty, decide_eq_false (by omega), hr.sizeVertex]
  have h1 : start ≤ start + 1 := by omega
  have h2 : start + 1 ≤ L.length := hs
  have h3 : (if L.length ≤ start + 1 then L.length else start + 1) = start + 1 := by split <;> omega
  have h4 : wr (List.replicate (start + 1) sizeMax) start 0 = .ok ((List.replicate (start + 1) sizeMax).set start 0) :=
    wr_ok (by simp)
  simp only [Bool.not_false, assert_true, Out.ok_bind, hs, decide_true, h1, h2, Bool.or_true, h3, ecc_resize, h4,
    Out.pure_eq]

theorem eccVertex_okub {d : Bool} {g : Graph} {L : List (List Nat)} (hr : g.Rep L) (hg : Good d L)
    (hn : L.length < sizeMax) {start : Nat} (hs : start < L.length) (old : List Nat) :
    OkUb (g.eccVertex start old (start + 1)) := by
  rw [eccVertex_unfold hr hs]
  have hi := ecc_init (n := start + 1) (start := start) (by omega)
  rcases whileFuel_okub (cond := fun s : List Nat × List Nat => !s.1.isEmpty) (body := g.eccStep (start + 1))
    (fun s => ∃ M, BInB (start + 1) M s) (fun s => s.1.length + unsetCount isMax s.2) (fuel := 1 + L.length)
    ⟨_, hi⟩ (by have := hi.meas; simp only at this ⊢; omega)
    (by
      rintro ⟨q, m⟩ _ h
      simp only at h
      have : q = [] := List.eq_nil_of_length_eq_zero (by omega)
      simp [this])
    (fun s hs' hc => eccStep_okub hr hg (by omega) (by omega) hs' hc) with h | ⟨s', h⟩
  · exact .inl (by rw [h]; rfl)
  · exact .inr ⟨s'.2, by rw [h]; rfl⟩

theorem eccVertex_ub {d : Bool} {g : Graph} {L : List (List Nat)} (hr : g.Rep L) (hg : Good d L)
    (hn : L.length < sizeMax) {start b : Nat} (hb : b ∈ row L start) (hlt : start < b) (old : List Nat) :
    g.eccVertex start old (start + 1) = .ub := by
  have hs : start < L.length := lt_of_mem_row hb
  rw [eccVertex_unfold hr hs]
  have hstep : g.eccStep (start + 1) ([start], (List.replicate (start + 1) sizeMax).set start 0) = .ub := by
    unfold eccStep
    have hnf : ¬ start ≥ start + 1 := by omega
    simp only [if_neg hnf, hr.nbrs hs, Out.ok_bind]
    have hi := ecc_init (n := start + 1) (start := start) (by omega)
    refine foldlM_ub (f := discover isMax (nextLevel start))
      (fun s => (∃ M, BInB (start + 1) M s) ∧ ∃ k, k ≠ sizeMax ∧ s.2[start]? = some k) ?_ ?_ hb ?_
    · rintro s a ⟨⟨M, hM⟩, hk⟩
      rcases discover_okub (v := a) (by omega) hM hk with h | ⟨s', h1, h2, h3⟩
      · exact .inl h
      · exact .inr ⟨s', h1, ⟨M, h2⟩, h3⟩
    · exact ⟨⟨_, ⟨hi.len, by simp, hi.small, rfl⟩⟩, hi.q start (by simp)⟩
    · rintro s ⟨⟨M, hM⟩, _⟩
      unfold discover
      rw [rd_ub (by rw [hM.len]; omega)]
      rfl
  rw [Nat.add_comm 1 L.length]
  simp [whileFuel, hstep]

theorem eccGraph_ub {d : Bool} {g : Graph} {L : List (List Nat)} (hr : g.Rep L) (hg : Good d L)
    (hn : L.length < sizeMax) {a b : Nat} (hb : b ∈ row L a) (hlt : a < b) (ecc : List (List Nat)) :
    g.eccGraph ecc = .ub := by
  have ha : a < L.length := lt_of_mem_row hb
  have hidx : ∀ i, i < L.length → usub (usub L.length i) 1 = L.length - i - 1 := by
    intro i hi
    rw [usub_of_le (show i ≤ L.length by omega), usub_of_le (by omega)]
  unfold eccGraph
  rw [hr.sizeVertex]
  apply loop_stop .ub (fun _ => rfl) (fun s : List (List Nat) => s.length = L.length) (j := L.length - a - 1)
  · simp [resizeList]; omega
  · intro i s hi hs
    have hlt : L.length - i - 1 < s.length := by omega
    simp only [hidx i hi, rd_ok hlt, Out.ok_bind]
    rcases eccVertex_okub hr hg hn (start := L.length - i - 1) (by omega) (s[L.length - i - 1]) with h | ⟨x, h⟩
    · exact .inl (by rw [h]; rfl)
    · rw [h, Out.ok_bind, wr_ok hlt]
      exact .inr ⟨_, rfl, by simpa using hs⟩
  · omega
  · intro s hs
    have he : L.length - (L.length - a - 1) - 1 = a := by omega
    have hlt' : a < s.length := by omega
    simp only [hidx (L.length - a - 1) (by omega), he, rd_ok hlt', Out.ok_bind]
    rw [eccVertex_ub hr hg hn hb hlt]
    rfl

theorem eccVertex_isolated {g : Graph} {L : List (List Nat)} (hr : g.Rep L)
    {start : Nat} (hs : start < L.length) (h0 : row L start = []) (old : List Nat) :
    g.eccVertex start old (start + 1) = .ok (List.replicate start sizeMax ++ [0]) := by
  rw [eccVertex_unfold hr hs]
  have hstep : g.eccStep (start + 1) ([start], (List.replicate (start + 1) sizeMax).set start 0) =
      .ok ([], (List.replicate (start + 1) sizeMax).set start 0) := by
    unfold eccStep
    have hnf : ¬ start ≥ start + 1 := by omega
    simp only [if_neg hnf, hr.nbrs hs, Out.ok_bind, h0]
    rfl
  have hfin : (List.replicate (start + 1) sizeMax).set start 0 = List.replicate start sizeMax ++ [0] := by
    rw [List.replicate_succ', List.set_append_right _ _ (by simp)]
    simp
  have hend : ∀ fuel (m : List Nat), whileFuel (fun s : List Nat × List Nat => !s.1.isEmpty) (g.eccStep (start + 1)) fuel ([], m) =
      .ok ([], m) := by
    intro fuel m
    cases fuel <;> simp [whileFuel]
  rw [Nat.add_comm 1 L.length]
  simp only [whileFuel, List.isEmpty_cons, Bool.not_false, if_true, hstep, Out.ok_bind, hend]
  rw [hfin]

theorem eccGraph_edgeless {g : Graph} {L : List (List Nat)} (hr : g.Rep L) (h0 : ∀ i, row L i = [])
    (ecc : List (List Nat)) :
    g.eccGraph ecc = .ok ((List.range L.length).map fun s => List.replicate s sizeMax ++ [0]) := by
  have hidx : ∀ i, i < L.length → usub (usub L.length i) 1 = L.length - i - 1 := by
    intro i hi
    rw [usub_of_le (show i ≤ L.length by omega), usub_of_le (by omega)]
  unfold eccGraph
  rw [hr.sizeVertex]
  obtain ⟨s', h1, h2, h3⟩ := loop_inv (body := fun i ecc => do
      let start := usub (usub L.length i) 1
      let old ← rd ecc start
      let d ← g.eccVertex start old (start + 1)
      wr ecc start d) (fun i (s : List (List Nat)) => s.length = L.length ∧
        ∀ v, v < L.length → L.length - i ≤ v → s[v]? = some (List.replicate v sizeMax ++ [0])) (n := L.length)
    (s := resizeList ecc L.length []) ⟨by simp [resizeList]; omega, by intro v hv hv'; omega⟩
    (by
      rintro i s hi ⟨hl, hv⟩
      have hlt : L.length - i - 1 < s.length := by omega
      simp only [hidx i hi, rd_ok hlt, Out.ok_bind]
      rw [eccVertex_isolated hr (by omega) (h0 _), Out.ok_bind, wr_ok hlt]
      refine ⟨_, rfl, by simpa using hl, ?_⟩
      intro v hvl hvi
      rw [List.getElem?_set]
      by_cases he : L.length - i - 1 = v
      · subst he; simp [hlt]
      · rw [if_neg he]; exact hv v hvl (by omega))
  rw [h1]
  congr 1
  apply List.ext_getElem?
  intro v
  by_cases hv : v < L.length
  · rw [h3 v hv (by omega)]
    simp [hv]
  · rw [List.getElem?_eq_none (by omega), List.getElem?_eq_none (by simp; omega)]

end Graph
end Disa
