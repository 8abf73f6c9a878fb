import Verif.Graph.Levels

/-! # Level expansion -/

namespace Disa
open Spec
namespace Graph

/-- Steps of the graph between two vertices of colour `i`. -/
def monoRel (L : List (List Nat)) (color : List Nat) (i a b : Nat) : Prop :=
  rowRel L a b ∧ color[a]? = some i ∧ color[b]? = some i

/-- What holds of the colours at any time; `t` bounds the distances. -/
structure CInv (L : List (List Nat)) (seeds : List Nat) (t : Nat) (color : List Nat) : Prop where
  len : color.length = L.length
  /-- a colour belongs to a seed at the right distance, joined by a walk of that colour -/
  ok : ∀ (v i : Nat), color[v]? = some i → i ≠ sizeMax → ∃ k s, k ≤ t ∧ IsDist (rowRel L) (· ∈ seeds) v k ∧
    seeds[i]? = some s ∧ color[s]? = some i ∧ Walk (monoRel L color i) k s v

theorem CInv.mono {L seeds t t' color} (h : CInv L seeds t color) (ht : t ≤ t') : CInv L seeds t' color :=
  ⟨h.len, fun v i hv hi => by
    obtain ⟨k, s, hk, h⟩ := h.ok v i hv hi
    exact ⟨k, s, by omega, h⟩⟩

/-- `color'` keeps all colours of `color`. -/
def Keeps (color color' : List Nat) : Prop := ∀ (v i : Nat), color[v]? = some i → i ≠ sizeMax → color'[v]? = some i

theorem Keeps.refl (c : List Nat) : Keeps c c := fun _ _ h _ => h

theorem Keeps.trans {a b c : List Nat} (h : Keeps a b) (h' : Keeps b c) : Keeps a c :=
  fun v i hv hi => h' v i (h v i hv hi) hi

/-- State of draining the queue of colour `i` in sweep `t`: the fronts in `todo` are left. -/
structure DInv (L : List (List Nat)) (seeds : List Nat) (t i : Nat) (old : List Nat) (done : List Nat)
    (s : List Nat × List Nat) : Prop where
  c : CInv L seeds (t + 1) s.2
  keeps : Keeps old s.2
  mem : ∀ v, v ∈ s.1 ↔ s.2[v]? = some i ∧ IsDist (rowRel L) (· ∈ seeds) v (t + 1)
  nodup : s.1.Nodup
  others : ∀ (v j : Nat), s.2[v]? = some j → j ≠ i → old[v]? = some j
  closed : ∀ u ∈ done, ∀ w, rowRel L u w → ∃ j, j ≠ sizeMax ∧ s.2[w]? = some j
  same : ∀ v k, IsDist (rowRel L) (· ∈ seeds) v k → k ≤ t → s.2[v]? = old[v]?

theorem drain_ok {d : Bool} {g : Graph} {L : List (List Nat)} (hr : g.Rep L) (hg : Good d L) {seeds : List Nat}
    {t i : Nat} (hi : i ≠ sizeMax) {old : List Nat}
    (hall : ∀ v k, IsDist (rowRel L) (· ∈ seeds) v k → k ≤ t → ∃ j, j ≠ sizeMax ∧ old[v]? = some j)
    {todo done : List Nat} (htodo : ∀ f ∈ todo, old[f]? = some i ∧ IsDist (rowRel L) (· ∈ seeds) f t)
    {s : List Nat × List Nat} (h : DInv L seeds t i old done s) :
    ∃ s', g.drain todo s = .ok s' ∧ DInv L seeds t i old (done ++ todo) s' := by
  induction todo generalizing s done with
  | nil => exact ⟨s, rfl, by simpa using h⟩
  | cons f rest ih =>
    obtain ⟨q, m⟩ := s
    obtain ⟨hfc, hfd⟩ := htodo f (by simp)
    obtain ⟨hc, hk, hm, hnd, hoth, hcl, hsame⟩ := h
    simp only at hc hk hm hnd hoth hcl hsame
    have hlen := hc.len
    have hmf : m[f]? = some i := hk f i hfc hi
    have hflt : f < L.length := by
      have := (List.getElem?_eq_some_iff.mp hmf).1
      rwa [hlen] at this
    have hfold := discover_fold (isNew := isMax) (val := fun color => rd color f) (b := i) (by simpa [isMax] using hi)
      (hg.nodup f) (q := q) (m := m) (fun v hv => by rw [hlen]; exact hg.range f v hv)
      (by
        intro m' _ hm'
        exact rd_of_some (hm' f i hmf (by simpa [isMax] using hi)))
    have hmemf : ∀ w, w ∈ fresh isMax m (row L f) ↔ rowRel L f w ∧ m[w]? = some sizeMax := by
      intro w
      rw [mem_fresh]
      unfold rowRel
      constructor
      · rintro ⟨h1, h2⟩
        refine ⟨h1, ?_⟩
        cases hx : m[w]? with
        | none => rw [hx] at h2; simp at h2
        | some x => rw [hx] at h2; simp [isMax] at h2; rw [h2]
      · rintro ⟨h1, h2⟩
        exact ⟨h1, by simp [h2, isMax]⟩
    generalize hF : fresh isMax m (row L f) = F at hfold hmemf
    have hFlt : ∀ w ∈ F, w < m.length := fun w hw => by rw [hlen]; exact hg.range f w ((hmemf w).mp hw).1
    have hFd : ∀ w ∈ F, IsDist (rowRel L) (· ∈ seeds) w (t + 1) := by
      intro w hw
      obtain ⟨h1, h2⟩ := (hmemf w).mp hw
      obtain ⟨j, hj, hd⟩ := hfd.succ_le h1
      by_cases hjt : j ≤ t
      · obtain ⟨c, hc1, hc2⟩ := hall w j hd hjt
        rw [hk w c hc2 hc1] at h2
        exact absurd (Option.some.inj h2) hc1
      · have : j = t + 1 := by omega
        exact this ▸ hd
    have hget : ∀ (v : Nat), (mark m F i)[v]? = if v ∈ F then some i else m[v]? := by
      intro v
      rw [mark_getElem?]
      by_cases hv : v ∈ F
      · simp [hv, hFlt v hv]
      · simp [hv]
    have hkeep : Keeps m (mark m F i) := by
      intro v j hv hj
      rw [hget]
      by_cases hvF : v ∈ F
      · rw [((hmemf v).mp hvF).2] at hv
        exact absurd (Option.some.inj hv).symm hj
      · rw [if_neg hvF]; exact hv
    have hmono : ∀ j, j ≠ sizeMax → ∀ a b, monoRel L m j a b → monoRel L (mark m F i) j a b := by
      rintro j hj a b ⟨h1, h2, h3⟩
      exact ⟨h1, hkeep a j h2 hj, hkeep b j h3 hj⟩
    have h' : DInv L seeds t i old (done ++ [f]) (q ++ F, mark m F i) := by
      constructor
      · refine ⟨by simpa using hlen, ?_⟩
        intro v j hv hj
        simp only [hget] at hv
        by_cases hvF : v ∈ F
        · rw [if_pos hvF] at hv
          have hij := Option.some.inj hv
          subst hij
          obtain ⟨k, s, hkt, hkd, hs1, hs2, hw⟩ := hc.ok f i hmf hi
          have := hkd.unique hfd
          subst this
          refine ⟨k + 1, s, Nat.le_refl _, hFd v hvF, hs1, hkeep s i hs2 hi, f, Walk.mono (hmono i hi) hw, ?_⟩
          refine ⟨((hmemf v).mp hvF).1, hkeep f i hmf hi, ?_⟩
          simp only [hget, if_pos hvF]
        · rw [if_neg hvF] at hv
          obtain ⟨k, s, hkt, hkd, hs1, hs2, hw⟩ := hc.ok v j hv hj
          exact ⟨k, s, hkt, hkd, hs1, hkeep s j hs2 hj, Walk.mono (hmono j hj) hw⟩
      · exact hk.trans hkeep
      · intro v
        simp only [List.mem_append, hget]
        by_cases hvF : v ∈ F
        · simp [hvF, hFd v hvF]
        · simp [hvF, hm]
      · simp only
        rw [List.nodup_append]
        refine ⟨hnd, ?_, ?_⟩
        · rw [← hF]; exact (hg.nodup f).filter _
        · rintro a ha b hb rfl
          have h1 := ((hm a).mp ha).1
          rw [((hmemf a).mp hb).2] at h1
          exact hi (Option.some.inj h1).symm
      · intro v j hv hj
        simp only [hget] at hv
        by_cases hvF : v ∈ F
        · rw [if_pos hvF] at hv; exact absurd (Option.some.inj hv).symm hj
        · rw [if_neg hvF] at hv; exact hoth v j hv hj
      · intro u hu w huw
        simp only [hget]
        rcases List.mem_append.mp hu with hu | hu
        · obtain ⟨j, hj1, hj2⟩ := hcl u hu w huw
          exact ⟨j, hj1, by rw [← hget]; exact hkeep w j hj2 hj1⟩
        · have : u = f := by simpa using hu
          subst this
          by_cases hw : w ∈ F
          · exact ⟨i, hi, by rw [if_pos hw]⟩
          · have hwlt : w < m.length := by rw [hlen]; exact hg.range u w huw
            refine ⟨m[w], ?_, by rw [if_neg hw, List.getElem?_eq_getElem hwlt]⟩
            intro hmax
            exact hw ((hmemf w).mpr ⟨huw, by rw [List.getElem?_eq_getElem hwlt, hmax]⟩)
      · intro v k hd hkt
        simp only [hget]
        rw [if_neg]
        · exact hsame v k hd hkt
        · intro hvF
          have := (hFd v hvF).unique hd
          omega
    obtain ⟨s', h1, h2⟩ := ih (fun x hx => htodo x (by simp [hx])) h'
    refine ⟨s', ?_, by simpa using h2⟩
    rw [drain, hr.nbrs hflt, Out.ok_bind, hfold, Out.ok_bind, h1]

/-- The queue index handled at step `j` of sweep `t`. -/
def qidx (m t j : Nat) : Nat := if t % 2 == 0 then j else m - j - 1

theorem qidx_lt {m t j : Nat} (hj : j < m) : qidx m t j < m := by unfold qidx; split <;> omega

theorem qidx_inj {m t j k : Nat} (hj : j < m) (hk : k < m) (h : qidx m t j = qidx m t k) : j = k := by
  unfold qidx at h; split at h <;> omega

theorem qidx_surj {m t i : Nat} (hi : i < m) : ∃ j, j < m ∧ qidx m t j = i := by
  unfold qidx
  split
  · exact ⟨i, hi, rfl⟩
  · exact ⟨m - i - 1, by omega, by omega⟩

/-- State inside sweep `t` after `j` queues. -/
structure SwInv (L : List (List Nat)) (seeds : List Nat) (t : Nat) (old : List Nat) (j : Nat)
    (s : List (List Nat) × List Nat) : Prop where
  c : CInv L seeds (t + 1) s.2
  len : s.1.length = seeds.length
  keeps : Keeps old s.2
  same : ∀ v k, IsDist (rowRel L) (· ∈ seeds) v k → k ≤ t → s.2[v]? = old[v]?
  fresh : ∀ i, j ≤ i → i < seeds.length → (∀ v, s.2[v]? = some (qidx seeds.length t i) →
    ¬ IsDist (rowRel L) (· ∈ seeds) v (t + 1)) ∧ ∃ q, s.1[qidx seeds.length t i]? = some q ∧ q.Nodup ∧
    ∀ v, v ∈ q ↔ s.2[v]? = some (qidx seeds.length t i) ∧ IsDist (rowRel L) (· ∈ seeds) v t
  done : ∀ i, i < j → i < seeds.length → (∃ q, s.1[qidx seeds.length t i]? = some q ∧ q.Nodup ∧
    ∀ v, v ∈ q ↔ s.2[v]? = some (qidx seeds.length t i) ∧ IsDist (rowRel L) (· ∈ seeds) v (t + 1)) ∧
    ∀ u, s.2[u]? = some (qidx seeds.length t i) → IsDist (rowRel L) (· ∈ seeds) u t →
      ∀ w, rowRel L u w → ∃ c, c ≠ sizeMax ∧ s.2[w]? = some c

theorem expandQueue_ok {d : Bool} {g : Graph} {L : List (List Nat)} (hr : g.Rep L) (hg : Good d L) {seeds : List Nat}
    (hm : seeds.length < sizeMax) {t : Nat} {old : List Nat}
    (hall : ∀ v k, IsDist (rowRel L) (· ∈ seeds) v k → k ≤ t → ∃ j, j ≠ sizeMax ∧ old[v]? = some j)
    {j : Nat} (hj : j < seeds.length) {s : List (List Nat) × List Nat} (h : SwInv L seeds t old j s) :
    ∃ s', g.expandQueue t j s = .ok s' ∧ SwInv L seeds t old (j + 1) s' := by
  obtain ⟨qs, m⟩ := s
  obtain ⟨hc, hlen, hk, hsame, hfr, hdn⟩ := h
  simp only at hc hlen hk hsame hfr hdn
  obtain ⟨hnone, q, hq, hqn, hqm⟩ := hfr j (Nat.le_refl _) hj
  have hall' : ∀ v k, IsDist (rowRel L) (· ∈ seeds) v k → k ≤ t → ∃ j, j ≠ sizeMax ∧ m[v]? = some j := by
    intro v k hd hkt
    obtain ⟨c, h1, h2⟩ := hall v k hd hkt
    exact ⟨c, h1, hk v c h2 h1⟩
  have hidx := qidx_lt (m := seeds.length) (t := t) hj
  generalize hi : qidx seeds.length t j = i at *
  have himax : i ≠ sizeMax := by omega
  have hmemnil : ∀ v, v ∈ ([] : List Nat) ↔ m[v]? = some i ∧ IsDist (rowRel L) (· ∈ seeds) v (t + 1) := by
    intro v
    simp only [List.not_mem_nil, false_iff]
    rintro ⟨h1, h2⟩
    exact hnone v h1 h2
  obtain ⟨s', h1, h2⟩ := drain_ok (g := g) (old := m) (todo := q) (done := []) (s := ([], m)) hr hg himax hall' (fun f hf => (hqm f).mp hf)
    ⟨hc, Keeps.refl _, hmemnil, by simp, fun v j hv _ => hv, by simp, fun _ _ _ _ => rfl⟩
  obtain ⟨q', m'⟩ := s'
  obtain ⟨c1, c2, c3, c4, c5, c6, c7⟩ := h2
  simp only at c1 c2 c3 c4 c5 c6 c7
  have hlt : i < qs.length := by omega
  have hsame' : ∀ v k, IsDist (rowRel L) (· ∈ seeds) v k → k ≤ t → m'[v]? = m[v]? := c7
  refine ⟨(qs.set i q', m'), ?_, c1, by simpa using hlen, hk.trans c2, ?_, ?_, ?_⟩
  · unfold expandQueue
    have : (if (t % 2 == 0) = true then j else (qs, m).1.length - j - 1) = i := by
      rw [← hi]; unfold qidx; simp only [hlen]
    simp only [this, rd_of_some hq, Out.ok_bind, h1, wr_ok hlt, Out.pure_eq]
  · intro v k hd hkt
    simp only
    rw [c7 v k hd hkt, hsame v k hd hkt]
  · intro a ha hal
    have hai : qidx seeds.length t a ≠ i := by
      intro h; rw [← hi] at h
      have := qidx_inj hal hj h; omega
    obtain ⟨f1, r, f2, f3, f4⟩ := hfr a (by omega) hal
    simp only
    refine ⟨?_, r, by rw [List.getElem?_set_ne (Ne.symm hai)]; exact f2, f3, ?_⟩
    · intro v hv
      exact f1 v (c5 v _ hv hai)
    · intro v
      rw [f4]
      constructor
      · rintro ⟨x, y⟩; exact ⟨by rw [c7 v t y (Nat.le_refl _)]; exact x, y⟩
      · rintro ⟨x, y⟩; exact ⟨by rw [← c7 v t y (Nat.le_refl _)]; exact x, y⟩
  · intro a ha hal
    by_cases haj : a = j
    · subst haj
      rw [hi]
      simp only
      refine ⟨⟨q', by rw [List.getElem?_set_self hlt], c4, c3⟩, ?_⟩
      intro u hu hud w huw
      apply c6 u _ w huw
      rw [List.nil_append, hqm]
      exact ⟨by rw [← c7 u t hud (Nat.le_refl _)]; exact hu, hud⟩
    · have hai : qidx seeds.length t a ≠ i := by
        intro h; rw [← hi] at h
        have := qidx_inj hal hj h; omega
      obtain ⟨⟨r, f2, f3, f4⟩, f5⟩ := hdn a (by omega) hal
      simp only
      refine ⟨⟨r, by rw [List.getElem?_set_ne (Ne.symm hai)]; exact f2, f3, ?_⟩, ?_⟩
      · intro v
        rw [f4]
        constructor
        · rintro ⟨x, y⟩; exact ⟨c2 v _ x (by have := qidx_lt (t := t) hal; omega), y⟩
        · rintro ⟨x, y⟩; exact ⟨c5 v _ x hai, y⟩
      · intro u hu hud w huw
        obtain ⟨c, k1, k2⟩ := f5 u (c5 u _ hu hai) hud w huw
        exact ⟨c, k1, c2 w c k2 k1⟩

/-- State between sweeps. -/
structure XInv (L : List (List Nat)) (seeds : List Nat) (s : Nat × List (List Nat) × List Nat) : Prop where
  c : CInv L seeds s.1 s.2.2
  len : s.2.1.length = seeds.length
  all : ∀ v k, IsDist (rowRel L) (· ∈ seeds) v k → k ≤ s.1 → ∃ j, j ≠ sizeMax ∧ s.2.2[v]? = some j
  q : ∀ i, i < seeds.length → ∃ q, s.2.1[i]? = some q ∧ q.Nodup ∧
    ∀ v, v ∈ q ↔ s.2.2[v]? = some i ∧ IsDist (rowRel L) (· ∈ seeds) v s.1
  own : ∀ (i s' : Nat), seeds[i]? = some s' → s.2.2[s']? = some i

theorem expandSweep_ok {d : Bool} {g : Graph} {L : List (List Nat)} (hr : g.Rep L) (hg : Good d L) {seeds : List Nat}
    (hm : seeds.length < sizeMax) (hseed : ∀ s ∈ seeds, s < L.length) {s : Nat × List (List Nat) × List Nat}
    (h : XInv L seeds s) (hc : (s.2.1.any fun q => !q.isEmpty) = true) :
    ∃ s', g.expandSweep s = .ok s' ∧ XInv L seeds s' ∧ L.length - s'.1 < L.length - s.1 := by
  obtain ⟨t, qs, m⟩ := s
  obtain ⟨hci, hlen, hall, hq, hown⟩ := h
  simp only at hci hlen hall hq hc hown
  have htn : t < L.length := by
    rw [List.any_eq_true] at hc
    obtain ⟨q, hqm, hqe⟩ := hc
    obtain ⟨i, hi, hqi⟩ := List.mem_iff_getElem.mp hqm
    obtain ⟨q', h1, _, h2⟩ := hq i (by omega)
    rw [List.getElem?_eq_getElem hi, hqi] at h1
    cases h1
    cases q with
    | nil => simp at hqe
    | cons v q =>
      have := ((h2 v).mp (by simp)).2
      exact this.lt_card hseed (fun a b hab => hg.range a b hab)
  obtain ⟨⟨qs', m'⟩, h1, h2⟩ := loop_inv (body := g.expandQueue t) (SwInv L seeds t m) (n := seeds.length) (s := (qs, m))
    (by
      refine ⟨hci.mono (by omega), hlen, Keeps.refl _, fun _ _ _ _ => rfl, ?_, by intro i hi; omega⟩
      intro i _ hi
      have hlt := qidx_lt (t := t) hi
      obtain ⟨q, k1, k2, k3⟩ := hq _ hlt
      refine ⟨?_, q, k1, k2, k3⟩
      intro v hv hd
      obtain ⟨k, s, hk, hkd, _⟩ := hci.ok v _ hv (by omega)
      have := hkd.unique hd
      omega)
    (fun i s hi hs => expandQueue_ok hr hg hm hall hi hs)
  obtain ⟨c1, c2, c3, c4, c5, c6⟩ := h2
  simp only at c1 c2 c3 c4 c5 c6
  refine ⟨(t + 1, qs', m'), ?_, ⟨c1, c2, ?_, ?_, ?_⟩, by simp only; omega⟩
  · simp [expandSweep, hlen, h1, hr.sizeVertex, htn]
  · intro v k hd hk
    simp only at hk ⊢
    by_cases hkt : k ≤ t
    · obtain ⟨c, x, y⟩ := hall v k hd hkt
      exact ⟨c, x, c3 v c y x⟩
    · have : k = t + 1 := by omega
      subst this
      obtain ⟨p, hp, hpv⟩ := hd.pred
      obtain ⟨c, x, y⟩ := hall p t hp (Nat.le_refl _)
      have hcl : c < seeds.length := by
        obtain ⟨_, s, _, _, hs, _⟩ := hci.ok p c y x
        exact (List.getElem?_eq_some_iff.mp hs).1
      obtain ⟨j, hj, hjc⟩ := qidx_surj (t := t) hcl
      obtain ⟨_, hcl⟩ := c6 j hj hj
      exact hcl p (by rw [hjc]; exact c3 p c y x) hp v hpv
  · intro i hi
    obtain ⟨j, hj, hjc⟩ := qidx_surj (t := t) hi
    obtain ⟨hx, _⟩ := c6 j hj hj
    rw [hjc] at hx
    exact hx
  · intro i s' hs'
    exact c3 s' i (hown i s' hs') (by have := (List.getElem?_eq_some_iff.mp hs').1; omega)

/-- Initial colours. -/
theorem seed_loop {L : List (List Nat)} {seeds : List Nat} (hnd : seeds.Nodup) (hseed : ∀ s ∈ seeds, s < L.length) :
    ∃ color, loop seeds.length (fun i color => do
        let s ← rd seeds i
        wr color s i) (List.replicate L.length sizeMax) = .ok color ∧
      color.length = L.length ∧ (∀ (i s : Nat), seeds[i]? = some s → color[s]? = some i) ∧
      ∀ v, v < L.length → v ∉ seeds → color[v]? = some sizeMax := by
  obtain ⟨c, h1, h2, h3, h4⟩ := loop_inv (body := fun i (color : List Nat) => do
        let s ← rd seeds i
        wr color s i)
      (I := fun j color => color.length = L.length ∧ (∀ (i s : Nat), i < j → seeds[i]? = some s → color[s]? = some i) ∧
      ∀ v, v < L.length → v ∉ seeds.take j → color[v]? = some sizeMax) (n := seeds.length)
      (s := List.replicate L.length sizeMax)
    ⟨by simp, by intro i s hi; omega, by intro v hv _; simp [List.getElem?_replicate, hv]⟩
    (by
      rintro j color hj ⟨a1, a2, a3⟩
      have hs := hseed seeds[j] (List.getElem_mem hj)
      refine ⟨color.set seeds[j] j, by simp [rd_ok hj, wr_ok (show seeds[j] < color.length by omega)], by simpa using a1, ?_, ?_⟩
      · intro i s hi hsi
        rw [List.getElem?_set]
        by_cases hij : i = j
        · subst hij
          rw [List.getElem?_eq_getElem hj] at hsi
          cases hsi
          simp [a1, hs]
        · have hil : i < seeds.length := by omega
          rw [List.getElem?_eq_getElem hil] at hsi
          cases hsi
          have hne : seeds[j] ≠ seeds[i] := by
            intro h
            exact hij ((List.Nodup.getElem_inj_iff hnd).mp h).symm
          rw [if_neg hne]
          exact a2 i _ (by omega) (List.getElem?_eq_getElem hil)
      · intro v hv hvn
        rw [List.take_succ, List.getElem?_eq_getElem hj] at hvn
        simp only [Option.toList_some, List.mem_append, List.mem_singleton, not_or] at hvn
        rw [List.getElem?_set, if_neg (Ne.symm hvn.2)]
        exact a3 v hv hvn.1)
  refine ⟨c, h1, h2, ?_, ?_⟩
  · intro i s hs
    exact h3 i s (List.getElem?_eq_some_iff.mp hs).1 hs
  · intro v hv hvn
    exact h4 v hv (by simpa using hvn)

theorem levelExpansion_ok {d : Bool} {g : Graph} {L : List (List Nat)} (hr : g.Rep L) (hg : Good d L)
    (hn : L.length < sizeMax) {seeds : List Nat} (hne : seeds ≠ []) (hnd : seeds.Nodup)
    (hseed : ∀ s ∈ seeds, s < L.length) :
    ∃ color, g.levelExpansion seeds = .ok color ∧ color.length = L.length ∧
      (∀ (i s : Nat), seeds[i]? = some s → color[s]? = some i) ∧
      (∀ v, v < L.length →
        (color[v]? = some sizeMax ∧ ¬ Reached (rowRel L) (· ∈ seeds) v) ∨
        ∃ i s k, color[v]? = some i ∧ seeds[i]? = some s ∧ IsDist (rowRel L) (· ∈ seeds) v k ∧
          Walk (monoRel L color i) k s v) := by
  have hm : seeds.length < sizeMax := by
    have : seeds.length ≤ (List.range L.length).length := by
      apply List.Subperm.length_le
      apply List.subperm_of_subset hnd
      intro x hx
      exact List.mem_range.mpr (hseed x hx)
    simp at this
    omega
  have hn0 : 0 < L.length := by
    obtain ⟨s, hs⟩ := List.exists_mem_of_ne_nil seeds hne
    have := hseed s hs; omega
  obtain ⟨c0, l1, l2, l3, l4⟩ := seed_loop hnd hseed
  have hc0 : ∀ (v i : Nat), c0[v]? = some i → i ≠ sizeMax → v ∈ seeds ∧ seeds[i]? = some v := by
    intro v i hv hi
    have hvl : v < L.length := by
      have := (List.getElem?_eq_some_iff.mp hv).1; omega
    by_cases hvs : v ∈ seeds
    · obtain ⟨j, hj, hjv⟩ := List.mem_iff_getElem.mp hvs
      have := l3 j v (by rw [List.getElem?_eq_getElem hj, hjv])
      rw [hv] at this
      cases this
      exact ⟨hvs, by rw [List.getElem?_eq_getElem hj, hjv]⟩
    · rw [l4 v hvl hvs] at hv
      exact absurd (Option.some.inj hv).symm hi
  have hX0 : XInv L seeds (0, seeds.map (fun s => [s]), c0) := by
    refine ⟨⟨l2, ?_⟩, by simp, ?_, ?_, l3⟩
    · intro v i hv hi
      obtain ⟨h1, h2⟩ := hc0 v i hv hi
      exact ⟨0, v, Nat.le_refl _, isDist_zero.mpr h1, h2, hv, rfl⟩
    · intro v k hd hk
      have : k = 0 := by simpa using hk
      subst this
      have hvs := isDist_zero.mp hd
      obtain ⟨j, hj, hjv⟩ := List.mem_iff_getElem.mp hvs
      exact ⟨j, by omega, l3 j v (by rw [List.getElem?_eq_getElem hj, hjv])⟩
    · intro i hi
      refine ⟨[seeds[i]], by simp [hi], by simp, ?_⟩
      intro v
      simp only [List.mem_singleton]
      constructor
      · rintro rfl
        exact ⟨l3 i _ (List.getElem?_eq_getElem hi), isDist_zero.mpr (List.getElem_mem hi)⟩
      · rintro ⟨h1, _⟩
        have := (hc0 v i h1 (by omega)).2
        rw [List.getElem?_eq_getElem hi] at this
        exact (Option.some.inj this).symm
  obtain ⟨⟨t, qs, color⟩, h1, h2, h3⟩ := whileFuel_inv
    (cond := fun s : Nat × List (List Nat) × List Nat => s.2.1.any fun q => !q.isEmpty)
    (body := g.expandSweep) (XInv L seeds) (fun s => L.length - s.1) (fuel := L.length + 1) hX0 (by simp only; omega)
    (fun s hs hc => expandSweep_ok hr hg hm hseed hs hc)
  obtain ⟨x1, x2, x3, x4, x5⟩ := h2
  simp only at x1 x2 x3 x4 x5 h3
  refine ⟨color, ?_, x1.len, x5, ?_⟩
  · have hmx : maxElem seeds < L.length := maxElem_lt.mpr ⟨hn0, hseed⟩
    have hse : seeds.isEmpty = false := by cases seeds with
      | nil => exact absurd rfl hne
      | cons => rfl
    unfold levelExpansion
    rw [hr.empty, decide_eq_false (by omega), hr.sizeVertex]
    simp only [Bool.not_false, assert_true, Out.ok_bind, hse, hmx, decide_true, l1, h1, Out.pure_eq]
  · intro v hv
    have hvl : v < color.length := by rw [x1.len]; exact hv
    by_cases hmax : color[v] = sizeMax
    · left
      refine ⟨by rw [List.getElem?_eq_getElem hvl, hmax], ?_⟩
      rw [reached_iff]
      rintro ⟨k, hk⟩
      have hkt : t < k := by
        by_contra hc
        obtain ⟨j, hj1, hj2⟩ := x3 v k hk (by omega)
        rw [List.getElem?_eq_getElem hvl, hmax] at hj2
        exact hj1 (Option.some.inj hj2).symm
      obtain ⟨u, hu⟩ := hk.below (Nat.le_of_lt hkt)
      obtain ⟨j, hj1, hj2⟩ := x3 u t hu (Nat.le_refl _)
      obtain ⟨_, s, _, _, hs, _⟩ := x1.ok u j hj2 hj1
      obtain ⟨q, q1, _, q2⟩ := x4 j (List.getElem?_eq_some_iff.mp hs).1
      have huq := (q2 u).mpr ⟨hj2, hu⟩
      rw [Bool.eq_false_iff] at h3
      apply h3
      rw [List.any_eq_true]
      refine ⟨q, List.mem_of_getElem? q1, ?_⟩
      cases q with
      | nil => simp at huq
      | cons => rfl
    · right
      obtain ⟨k, s, _, hkd, hs1, _, hw⟩ := x1.ok v color[v] (List.getElem?_eq_getElem hvl) hmax
      exact ⟨color[v], s, k, List.getElem?_eq_getElem hvl, hs1, hkd, hw⟩

end Graph
end Disa
