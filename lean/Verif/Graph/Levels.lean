import Verif.Graph.Search

/-! # Level traversal -/

namespace Disa
open Spec
namespace Graph

/-- Loop invariant of `levelStep`. -/
structure LInv (L : List (List Nat)) (S : Nat → Prop) (e : Nat) (s : List Nat × List Nat) : Prop where
  len : s.2.length = L.length
  bfs : ∃ out, BInv (rowRel L) S e (fun v => ∃ k, s.2[v]? = some (k + 1)) out s.1
  val : ∀ v k, s.2[v]? = some (k + 1) → IsDist (rowRel L) S v k

theorem wrap_of_lt {n : Nat} (h : n ≤ sizeMax) : wrap n = n := by
  unfold wrap; unfold sizeMax at h; exact Nat.mod_eq_of_lt (by omega)

theorem wrap_max : wrap (sizeMax + 1) = 0 := by decide

theorem usub_zero_one : usub 0 1 = sizeMax := by decide

theorem LInv.src_lt {L S e s} (h : LInv L S e s) : ∀ v, S v → v < L.length := by
  intro v hv
  obtain ⟨out, hb⟩ := h.bfs
  obtain ⟨k, hk⟩ := hb.src v hv
  have := (List.getElem?_eq_some_iff.mp hk).1
  rw [h.len] at this; exact this

theorem levelStep_inv {d : Bool} {g : Graph} {L : List (List Nat)} (hr : g.Rep L) (hg : Good d L) (hn : L.length < sizeMax)
    {S : Nat → Prop} {e : Nat} (he : e ≤ sizeMax) {s : List Nat × List Nat} (h : LInv L S e s)
    (hc : (!s.1.isEmpty) = true) :
    ∃ s', g.levelStep e s = .ok s' ∧ LInv L S e s' ∧
      s'.1.length + unsetCount unset s'.2 < s.1.length + unsetCount unset s.2 := by
  obtain ⟨q, m⟩ := s
  have hsrc := h.src_lt
  obtain ⟨hlen, ⟨out, hb⟩, hval⟩ := h
  simp only at hlen hb hval hc ⊢
  cases q with
  | nil => simp at hc
  | cons f rest =>
    obtain ⟨k, hk⟩ := (hb.mem f).mpr (.inr (by simp))
    have hd := hval f k hk
    have hflt : f < L.length := by
      have := (List.getElem?_eq_some_iff.mp hk).1
      rwa [hlen] at this
    have hkn : k < L.length := hd.lt_card hsrc (fun u v huv => hg.range u v huv)
    have hwr : ((k + 1 == wrap (e + 1)) = true) ↔ k = e := by
      by_cases hes : e = sizeMax
      · have : wrap (e + 1) = 0 := by subst hes; decide
        rw [this]; simp; omega
      · rw [wrap_of_lt (by omega)]; simp
    unfold levelStep
    simp only [rd_of_some hk, Out.ok_bind]
    by_cases hke : k = e
    · rw [if_pos (hwr.mpr hke)]
      refine ⟨_, rfl, ⟨hlen, ⟨_, hb.skip (hke ▸ hd)⟩, hval⟩, by simp⟩
    · rw [if_neg (fun hh => hke (hwr.mp hh))]
      rw [hr.nbrs hflt, Out.ok_bind]
      have hfold := discover_fold (isNew := unset) (val := nextLevel f) (b := k + 2) (by simp [unset])
        (hg.nodup f) (q := rest) (m := m) (fun v hv => by rw [hlen]; exact hg.range f v hv)
        (by
          intro m' _ hm'
          have := hm' f (k + 1) hk (by simp [unset])
          simp only [nextLevel, rd_of_some this, Out.ok_bind, Out.pure_eq]
          rw [wrap_of_lt (by omega)])
      rw [hfold]
      have hmem : ∀ w, w ∈ fresh unset m (row L f) ↔ rowRel L f w ∧ ¬ ∃ k, m[w]? = some (k + 1) := by
        intro w
        rw [mem_fresh]
        unfold rowRel
        constructor
        · rintro ⟨h1, h2⟩
          refine ⟨h1, ?_⟩
          rintro ⟨j, hj⟩
          rw [hj] at h2
          simp [unset] at h2
        · rintro ⟨h1, h2⟩
          refine ⟨h1, ?_⟩
          have hlt : w < m.length := by rw [hlen]; exact hg.range f w h1
          rw [List.getElem?_eq_getElem hlt] at h2 ⊢
          cases hx : m[w] with
          | zero => simp [unset]
          | succ j => exact absurd ⟨j, by rw [hx]⟩ h2
      have hnd : (fresh unset m (row L f)).Nodup := (hg.nodup f).filter _
      have hb' := hb.expand hd hke hnd hmem
      have hvis : (fun v => (∃ k, m[v]? = some (k + 1)) ∨ v ∈ fresh unset m (row L f)) =
          (fun v => ∃ j, (mark m (fresh unset m (row L f)) (k + 2))[v]? = some (j + 1)) := by
        funext v
        rw [mark_getElem?]
        apply propext
        by_cases hv : v ∈ fresh unset m (row L f)
        · have hlt : v < m.length := by rw [hlen]; exact hg.range f v ((hmem v).mp hv).1
          simp [hv, hlt]
        · simp [hv]
      rw [hvis] at hb'
      refine ⟨_, rfl, ⟨by simpa using hlen, ⟨_, hb'⟩, ?_⟩, ?_⟩
      · intro v j hj
        simp only [mark_getElem?] at hj
        split at hj
        · rename_i hv
          cases hj
          exact hb.dist_new hd ((hmem v).mp hv.1).1 ((hmem v).mp hv.1).2
        · exact hval v j hj
      · have := unsetCount_mark (isNew := unset) (b := k + 2) (by simp [unset]) (m := m) hnd
          (fun v hv => (mem_fresh.mp hv).2)
        simp only [List.length_append, List.length_cons]
        omega

theorem maxElem_lt {l : List Nat} {n : Nat} : maxElem l < n ↔ 0 < n ∧ ∀ x ∈ l, x < n := by
  unfold maxElem
  have : ∀ (l : List Nat) (a : Nat), l.foldl max a < n ↔ a < n ∧ ∀ x ∈ l, x < n := by
    intro l
    induction l with
    | nil => simp
    | cons b l ih => intro a; simp [ih, and_assoc]
  exact this l 0

/-- Levels before a traversal: `sizeMax` for unknown. -/
structure LStart (L : List (List Nat)) (S : Nat → Prop) (e : Nat) (q level : List Nat) : Prop where
  len : level.length = L.length
  bfs : ∃ out, BInv (rowRel L) S e (fun v => ∃ k, k ≠ sizeMax ∧ level[v]? = some k) out q
  val : ∀ v k, level[v]? = some k → k ≠ sizeMax → IsDist (rowRel L) S v k

theorem levelTraversalFrom_ok {d : Bool} {g : Graph} {L : List (List Nat)} (hr : g.Rep L) (hg : Good d L)
    (hne : L ≠ []) (hn : L.length < sizeMax) {S : Nat → Prop} {e : Nat} (he : e ≤ sizeMax) {q level : List Nat}
    (h : LStart L S e q level) (hmax : ∀ l ∈ level, l ≠ sizeMax → l + 1 < L.length) :
    ∃ out, g.levelTraversalFrom q level e = .ok out ∧ IsLevels (rowRel L) S e L.length out := by
  have hn0 : 0 < L.length := List.length_pos_iff.mpr hne
  obtain ⟨hlen, ⟨out, hb⟩, hval⟩ := h
  have hbig : ∀ l ∈ level, l ≠ sizeMax → wrap (l + 1) = l + 1 := by
    intro l hl hls; exact wrap_of_lt (by have := hmax l hl hls; omega)
  have hw0 := wrap_max
  have hmapk : ∀ (v k : Nat), (level.map fun l => wrap (l + 1))[v]? = some (k + 1) ↔ k ≠ sizeMax ∧ level[v]? = some k := by
    intro v k
    rw [List.getElem?_map]
    cases hx : level[v]? with
    | none => simp
    | some l =>
      have hml : l ∈ level := List.mem_of_getElem? hx
      by_cases hls : l = sizeMax
      · subst hls
        simp only [Option.map_some, hw0, Option.some.injEq]
        constructor
        · intro h; omega
        · rintro ⟨h1, h2⟩; exact absurd h2.symm h1
      · simp only [Option.map_some, hbig l hml hls, Option.some.injEq]
        constructor
        · intro h; have : l = k := by omega
          subst this; exact ⟨hls, rfl⟩
        · rintro ⟨_, rfl⟩; rfl
  have hI : LInv L S e (q, level.map fun l => wrap (l + 1)) := by
    refine ⟨by simpa using hlen, ⟨out, ?_⟩, ?_⟩
    · have : (fun (v : Nat) => ∃ k, (level.map fun l => wrap (l + 1))[v]? = some (k + 1)) =
          (fun (v : Nat) => ∃ k, k ≠ sizeMax ∧ level[v]? = some k) := by
        funext v; simp only [hmapk]
      simp only [this]; exact hb
    · intro v k hk
      obtain ⟨h1, h2⟩ := (hmapk v k).mp hk
      exact hval v k h2 h1
  obtain ⟨s', hs', hI', hc⟩ := whileFuel_inv (cond := fun s : List Nat × List Nat => !s.1.isEmpty)
    (body := g.levelStep e) (LInv L S e)
    (fun s => s.1.length + unsetCount unset s.2) (fuel := q.length + L.length) hI
    (by have := unsetCount_le unset (level.map fun l => wrap (l + 1)); simp at this ⊢; omega)
    (fun s hs hc => levelStep_inv hr hg hn he hs hc)
  have hsrc := hI'.src_lt
  obtain ⟨hlen', ⟨out', hb'⟩, hval'⟩ := hI'
  have hq : s'.1 = [] := by simpa using hc
  rw [hq] at hb'
  refine ⟨s'.2.map fun l => usub l 1, ?_, by simpa using hlen', ?_⟩
  · unfold levelTraversalFrom
    rw [hr.empty, decide_eq_false (by omega), hr.sizeVertex]
    have h1 : maxElem (level.map fun l => wrap (l + 1)) < L.length := by
      rw [maxElem_lt]
      refine ⟨hn0, ?_⟩
      intro x hx
      obtain ⟨l, hl, rfl⟩ := List.mem_map.mp hx
      by_cases hls : l = sizeMax
      · subst hls; rw [hw0]; exact hn0
      · rw [hbig l hl hls]; exact hmax l hl hls
    simp [hlen, h1, hs']
  · intro v hv
    rw [List.getElem?_map]
    have hvl : v < s'.2.length := by omega
    rw [List.getElem?_eq_getElem hvl]
    cases hx : s'.2[v] with
    | zero =>
      right
      refine ⟨by simp [usub_zero_one], ?_⟩
      intro k hk hd
      obtain ⟨j, hj⟩ := (hb'.done v).mpr ⟨k, hk, hd⟩
      rw [List.getElem?_eq_getElem hvl, hx] at hj
      simp at hj
    | succ k =>
      left
      have hd := hval' v k (by rw [List.getElem?_eq_getElem hvl, hx])
      obtain ⟨j, hj, hd'⟩ := hb'.dist v ⟨k, by rw [List.getElem?_eq_getElem hvl, hx]⟩
      refine ⟨k, by rw [hd.unique hd']; exact hj, hd, by simp [usub_of_le]⟩

theorem levelTraversal_ok {d : Bool} {g : Graph} {L : List (List Nat)} (hr : g.Rep L) (hg : Good d L)
    (hn1 : 1 < L.length) (hn : L.length < sizeMax) {e : Nat} (he : e ≤ sizeMax) {start : Nat} (hs : start < L.length) :
    ∃ out, g.levelTraversal start e = .ok out ∧ IsLevels (rowRel L) (· = start) e L.length out := by
  have hwr : wr (List.replicate L.length sizeMax) start 0 = .ok ((List.replicate L.length sizeMax).set start 0) :=
    wr_ok (by simpa using hs)
  have hget : ∀ v, ((List.replicate L.length sizeMax).set start 0)[v]? =
      if v = start then some 0 else if v < L.length then some sizeMax else none := by
    intro v
    rw [List.getElem?_set, List.getElem?_replicate]
    by_cases h : start = v
    · subst h; simp [hs]
    · simp [h, Ne.symm h]
  have hvis : (fun v => ∃ k, k ≠ sizeMax ∧ ((List.replicate L.length sizeMax).set start 0)[v]? = some k) = (· = start) := by
    funext v
    apply propext
    rw [hget]
    constructor
    · rintro ⟨k, hk, h⟩
      by_contra hc
      rw [if_neg hc] at h
      split at h
      · cases h; exact hk rfl
      · cases h
    · rintro rfl; exact ⟨0, by decide, by simp⟩
  obtain ⟨out, h1, h2⟩ := levelTraversalFrom_ok hr hg (by rintro rfl; simp at hs) hn (S := (· = start)) (e := e) he
    (q := [start]) (level := (List.replicate L.length sizeMax).set start 0)
    (by
      refine ⟨by simp, ⟨[], ?_⟩, ?_⟩
      · rw [hvis]; exact BInv.start start e
      · intro v k hk hks
        rw [hget] at hk
        split at hk
        · cases hk; rename_i h; subst h; exact isDist_zero.mpr rfl
        · split at hk
          · cases hk; exact absurd rfl hks
          · cases hk)
    (by
      intro l hl hls
      rcases List.mem_or_eq_of_mem_set hl with h | h
      · exact absurd (List.eq_of_mem_replicate h) hls
      · omega)
  refine ⟨out, ?_, h2⟩
  unfold levelTraversal
  rw [hr.empty, decide_eq_false (by omega), hr.sizeVertex]
  simp [hs, hwr, h1]

end Graph
end Disa
