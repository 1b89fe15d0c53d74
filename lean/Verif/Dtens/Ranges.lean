import Verif.Dtens.Lookup

/-!
# Complete tensors of derivatives
-/

namespace Heyoka.Dtens

variable {α : Type}

/-- The keys of a tensor of derivatives up to an order: all the derivatives of all the components
with respect to all the arguments, in the specified order. `diff_tensors()` returns such a tensor
(see the properties of the automatic differentiation). -/
structure Complete (d : Dt α) (nouts order : Nat) : Prop where
  sorted : d.map.Pairwise (fun p q => Less p.1 q.1)
  keys : ∀ v : SIdx, (∃ p ∈ d.map, p.1 = v) ↔
    v.1 < nouts ∧ Sane v.2 ∧ (∀ q ∈ v.2, q.1 < d.nargs) ∧ degree v.2 ≤ order
  nouts_pos : 0 < nouts
  nargs_pos : 0 < d.nargs
  nargs_fits : d.nargs < 2 ^ 32
  order_fits : order < 2 ^ 32

variable {d : Dt α} {nouts order : Nat}

theorem Complete.map (h : Complete d nouts order) : SortedMap d.map where
  sane p hp := ((h.keys p.1).mp ⟨p, hp, rfl⟩).2.1
  fits p hp := by
    have := ((h.keys p.1).mp ⟨p, hp, rfl⟩).2.2.2
    have := h.order_fits
    omega
  sorted := h.sorted

theorem sane_single (a o : Nat) : Sane (single a o) := by
  unfold single
  split
  · rename_i h; exact ⟨by simp, by simpa using h⟩
  · exact ⟨by simp, by simp⟩

theorem degree_single (a o : Nat) : degree (single a o) = o := by
  unfold single
  split
  · simp [degree]
  · rename_i h; simp only [ne_eq, not_not] at h; simp [degree, h]

theorem dense_single (a o i : Nat) : dense (single a o) i = if a = i then o else 0 := by
  unfold single
  split
  · rw [dense_cons]; rfl
  · rename_i h; simp only [ne_eq, not_not] at h; rw [dense_nil, h]; simp

theorem dense_le_degree (l : List (Nat × Nat)) (i : Nat) : dense l i ≤ degree l := by
  induction l with
  | nil => simp [dense_nil]
  | cons p t ih =>
    rw [dense_cons]
    simp only [degree, List.map_cons, List.sum_cons] at ih ⊢
    split <;> omega

/-- Two different arguments. -/
theorem dense_add_le {l : List (Nat × Nat)} (hl : Sane l) {i j : Nat} (hij : i ≠ j) :
    dense l i + dense l j ≤ degree l := by
  induction l with
  | nil => simp [dense_nil]
  | cons p t ih =>
    have h1 := dense_le_degree t i
    have h2 := dense_le_degree t j
    have h3 := ih hl.tail
    rw [dense_cons, dense_cons]
    simp only [degree, List.map_cons, List.sum_cons] at h1 h2 h3 ⊢
    split
    · rw [if_neg (by omega)]; omega
    · split <;> omega

theorem dense_zero_of_bound {l : List (Nat × Nat)} {n i : Nat} (h : ∀ q ∈ l, q.1 < n) (hi : n ≤ i) :
    dense l i = 0 := dense_eq_zero fun q hq => by have := h q hq; omega

/-- No derivative precedes the one with respect to the first argument only. -/
theorem not_less_first {v : SIdx} (hv : Sane v.2) {c : Nat} (hc : c ≤ v.1) :
    ¬ Less v (c, single 0 (degree v.2)) := by
  unfold Less
  rw [degree_single]
  rintro (h | ⟨_, h | ⟨_, i, h1, h2⟩⟩)
  · omega
  · exact absurd h (by simpa using hc)
  · rw [dense_single] at h2
    split at h2
    · rename_i h0
      have := dense_le_degree v.2 i
      omega
    · rename_i h0
      have h3 := h1 0 (by omega)
      rw [dense_single, if_pos rfl] at h3
      have := dense_add_le hv h0
      omega

/-- No derivative follows the one with respect to the last argument only. -/
theorem not_last_less {v : SIdx} {n : Nat} (hn : ∀ q ∈ v.2, q.1 < n) {c : Nat} (hc : v.1 ≤ c)
    (hv : Sane v.2) : ¬ Less (c, single (n - 1) (degree v.2)) v := by
  unfold Less
  rw [degree_single]
  rintro (h | ⟨_, h | ⟨_, i, h1, h2⟩⟩)
  · exact lt_irrefl _ h
  · exact absurd h (by simpa using hc)
  · rw [dense_single] at h2
    split at h2
    · rename_i h0
      have h3 : ∀ j, j ≠ i → dense v.2 j = 0 := by
        intro j hj
        rcases Nat.lt_or_ge j i with h4 | h4
        · have := h1 j h4
          rw [dense_single, if_neg (by omega)] at this
          exact this.symm
        · exact dense_zero_of_bound hn (by omega)
      -- Hence the degree is the order of the last argument.
      have h5 : v.2 = single i (degree v.2) ∨ v.2 = [] := by
        rcases hl : v.2 with _ | ⟨p, t⟩
        · exact .inr rfl
        · left
          rw [hl] at hv h3
          have hp : p.1 = i := by
            by_contra hne
            have := h3 p.1 hne
            rw [dense_cons, if_pos rfl] at this
            exact hv.2 p (by simp) this
          have ht : t = [] := by
            rcases t with _ | ⟨q, t⟩
            · rfl
            · have hq1 := hv.head q (by simp)
              have := h3 q.1 (by omega)
              rw [dense_cons, if_neg (by omega), dense_cons, if_pos rfl] at this
              exact absurd this (hv.2 q (by simp))
          subst ht
          have hne := hv.2 p (by simp)
          obtain ⟨p1, p2⟩ := p
          simp only at hp hne
          subst hp
          simp [single, degree, hne]
      rcases h5 with h5 | h5
      · have : dense v.2 i = degree v.2 := by
          conv_lhs => rw [h5]
          rw [dense_single, if_pos rfl]
        omega
      · rw [h5] at h2; simp [degree] at h2
    · omega

theorem Complete.has (h : Complete d nouts order) {v : SIdx} (h1 : v.1 < nouts) (h2 : Sane v.2)
    (h3 : ∀ q ∈ v.2, q.1 < d.nargs) (h4 : degree v.2 ≤ order) :
    ∃ i, ∃ hi : i < d.map.length, d.map[i].1 = v ∧ mapFind d.map v = .ok i :=
  mapFind_mem h.map ((h.keys v).mpr ⟨h1, h2, h3, h4⟩)

theorem Complete.hasSingle (h : Complete d nouts order) {c a o : Nat} (h1 : c < nouts)
    (ha : a < d.nargs) (ho : o ≤ order) :
    ∃ i, ∃ hi : i < d.map.length, d.map[i].1 = (c, single a o) ∧
      mapFind d.map (c, single a o) = .ok i := by
  refine h.has h1 (sane_single _ _) (fun q hq => ?_) (by rw [degree_single]; exact ho)
  simp only [single] at hq
  split at hq
  · simp only [List.mem_singleton] at hq; subst hq; exact ha
  · simp at hq

theorem Complete.lastArg (h : Complete d nouts order) : d.lastArg = d.nargs - 1 := by
  have := h.nargs_pos
  have := h.nargs_fits
  unfold Dt.lastArg
  omega

theorem Complete.isEmpty (h : Complete d nouts order) : d.map.isEmpty = false := by
  obtain ⟨i, hi, _⟩ := h.hasSingle (o := 0) h.nouts_pos h.nargs_pos (Nat.zero_le _)
  cases hm : d.map with
  | nil => rw [hm] at hi; simp at hi
  | cons _ _ => rfl

theorem Complete.valid (h : Complete d nouts order) {i : Nat} (hi : i < d.map.length) :
    d.map[i].1.1 < nouts ∧ Sane d.map[i].1.2 ∧ (∀ q ∈ d.map[i].1.2, q.1 < d.nargs) ∧
      degree d.map[i].1.2 ≤ order := (h.keys _).mp ⟨_, List.getElem_mem hi, rfl⟩

/-- The derivatives of an order of a range of components. -/
theorem Complete.seg (h : Complete d nouts order) {c1 c2 o : Nat} (hc : c1 ≤ c2) (hc2 : c2 < nouts)
    (ho : o ≤ order) :
    ∃ b e, mapFind d.map (c1, single 0 o) = .ok b ∧
      mapFind d.map (c2, single (d.nargs - 1) o) = .ok e ∧ b ≤ e ∧ e < d.map.length ∧
      (d.map.drop b).take (e + 1 - b) =
        d.map.filter (fun p => degree p.1.2 == o && (decide (c1 ≤ p.1.1) && decide (p.1.1 ≤ c2))) := by
  have hna := h.nargs_pos
  obtain ⟨b, hb, hb1, hb2⟩ := h.hasSingle (c := c1) (a := 0) (by omega) hna ho
  obtain ⟨e, he, he1, he2⟩ := h.hasSingle (c := c2) (a := d.nargs - 1) hc2 (by omega) ho
  have hiff : ∀ i (hi : i < d.map.length),
      (degree d.map[i].1.2 = o ∧ c1 ≤ d.map[i].1.1 ∧ d.map[i].1.1 ≤ c2) ↔ b ≤ i ∧ i ≤ e := by
    intro i hi
    obtain ⟨v1, v2, v3, v4⟩ := h.valid hi
    constructor
    · rintro ⟨h1, h2, h3⟩
      constructor
      · by_contra hc'
        push Not at hc'
        have := (h.map.lt_iff hi hb).mpr hc'
        rw [hb1, ← h1] at this
        exact not_less_first v2 h2 this
      · by_contra hc'
        push Not at hc'
        have := (h.map.lt_iff he hi).mpr hc'
        rw [he1, ← h1] at this
        exact not_last_less v3 h3 v2 this
    · rintro ⟨h1, h2⟩
      have g1 : ¬ Less d.map[i].1 (c1, single 0 o) := by
        rw [← hb1, h.map.lt_iff hi hb]; omega
      have g2 : ¬ Less (c2, single (d.nargs - 1) o) d.map[i].1 := by
        rw [← he1, h.map.lt_iff he hi]; omega
      unfold Less at g1 g2
      rw [degree_single] at g1 g2
      push Not at g1 g2
      have hdeg : degree d.map[i].1.2 = o := by omega
      refine ⟨hdeg, ?_, ?_⟩
      · have := (g1.2 hdeg).1; exact this
      · have := (g2.2 hdeg.symm).1; exact this
  have hbe : b ≤ e := by
    have := (hiff b hb).mp (by rw [hb1]; exact ⟨degree_single _ _, le_rfl, hc⟩)
    exact this.2
  refine ⟨b, e, hb2, he2, hbe, he, ?_⟩
  rw [segment_eq h.map hbe he
    (fun v => degree v.2 == o && (decide (c1 ≤ v.1) && decide (v.1 ≤ c2))) ?_]
  intro i hi
  rw [← hiff i hi]
  simp [Bool.and_eq_true]

/-- The derivatives of order zero. -/
theorem Complete.zero_keys (h : Complete d nouts order) :
    (d.map.filter (fun p => degree p.1.2 == 0)).map (·.1) = (List.range nouts).map (fun c => (c, [])) := by
  apply keys_ext
  · rw [List.pairwise_map]
    exact h.sorted.filter _
  · rw [List.pairwise_map]
    exact List.pairwise_lt_range.imp fun {a b} hab => .inr ⟨rfl, .inl hab⟩
  · intro v
    simp only [List.mem_map, List.mem_filter, List.mem_range, beq_iff_eq]
    constructor
    · rintro ⟨p, ⟨hp, hd⟩, rfl⟩
      have := (h.keys p.1).mp ⟨p, hp, rfl⟩
      refine ⟨p.1.1, this.1, ?_⟩
      have hnil : p.1.2 = [] := by
        by_contra hne
        have := degree_pos this.2.1 hne
        omega
      rw [← hnil]
    · rintro ⟨c, hc, rfl⟩
      obtain ⟨p, hp, he⟩ := (h.keys (c, [])).mpr ⟨hc, ⟨by simp, by simp⟩, by simp, by simp [degree]⟩
      exact ⟨p, ⟨hp, by rw [he]; simp [degree]⟩, he⟩

theorem Complete.getNouts (h : Complete d nouts order) : d.getNouts = .ok nouts := by
  unfold Dt.getNouts
  rw [h.isEmpty]
  simp only [Bool.false_eq_true, if_false]
  have hz := congrArg List.length h.zero_keys
  simp only [List.length_map, List.length_range] at hz
  rcases Nat.eq_zero_or_pos order with ho | ho
  · -- Only the order zero.
    rw [mapFind_not_mem h.map ⟨by simp, by simp⟩ (by simp [degree]) ?_]
    · congr 1
      rw [← hz]
      congr 1
      symm
      rw [List.filter_eq_self]
      intro p hp
      have := ((h.keys p.1).mp ⟨p, hp, rfl⟩).2.2.2
      rw [beq_iff_eq]; omega
    · intro p hp he
      have := ((h.keys p.1).mp ⟨p, hp, rfl⟩).2.2.2
      rw [he] at this
      simp [degree] at this; omega
  · obtain ⟨i, hi, hi1, hi2⟩ := h.hasSingle (c := 0) (a := 0) (o := 1) h.nouts_pos h.nargs_pos ho
    rw [show ((0 : Nat), [((0 : Nat), (1 : Nat))]) = (0, single 0 1) from rfl, hi2]
    congr 1
    obtain ⟨j, hj, hj1, _⟩ := h.hasSingle (c := 0) (a := 0) (o := 0) h.nouts_pos h.nargs_pos (Nat.zero_le _)
    have hji : j < i := by
      rw [← h.map.lt_iff hj hi, hj1, hi1]
      exact .inl (by rw [degree_single, degree_single]; norm_num)
    have hseg := segment_eq h.map (b := 0) (e := i - 1) (by omega) (by omega)
      (fun v => degree v.2 == 0) (fun k hk => by
        rw [beq_iff_eq]
        obtain ⟨_, v2, _, _⟩ := h.valid hk
        constructor
        · intro hd
          have : Less d.map[k].1 d.map[i].1 := .inl (by rw [hi1, degree_single]; omega)
          have := (h.map.lt_iff hk hi).mp this
          omega
        · rintro ⟨_, hk2⟩
          have : Less d.map[k].1 d.map[i].1 := (h.map.lt_iff hk hi).mpr (by omega)
          rw [hi1] at this
          by_contra hne
          rcases this with h3 | ⟨h3, h4⟩
          · rw [degree_single] at h3; omega
          · have := not_less_first v2 (Nat.zero_le _) (v := d.map[k].1) (c := 0)
            rw [h3, degree_single] at this
            exact this (.inr ⟨h3, h4⟩))
    rw [← hz, ← hseg]
    simp only [List.drop_zero, Nat.sub_zero, List.length_take]
    omega

theorem Complete.getOrder (h : Complete d nouts order) : d.getOrder = order := by
  have hn := h.nouts_pos
  obtain ⟨i, hi, hi1, _⟩ := h.hasSingle (c := nouts - 1) (a := d.nargs - 1) (o := order) (by omega)
    (by have := h.nargs_pos; omega) le_rfl
  have hlast : i = d.map.length - 1 := by
    by_contra hne
    have hl : d.map.length - 1 < d.map.length := by omega
    have hlt := (h.map.lt_iff hi hl).mpr (by omega)
    obtain ⟨v1, v2, v3, v4⟩ := h.valid hl
    have h3 := not_last_less v3 (c := nouts - 1) (by omega) v2
    rw [hi1] at hlt
    rcases hlt with h4 | ⟨h4, h5⟩
    · rw [degree_single] at h4; omega
    · rw [degree_single] at h4
      rw [← h4] at h3
      exact h3 (.inr ⟨by rw [degree_single]; exact h4, h5⟩)
  unfold Dt.getOrder
  have hg : d.map.getLast? = some d.map[i] := by
    rw [List.getLast?_eq_getElem?, ← hlast, List.getElem?_eq_getElem hi]
  rw [hg]
  simp only [hi1]
  by_cases h0 : order = 0
  · simp [single, h0]
  · simp [single, h0]

/-- The value associated to a key. -/
theorem Complete.lookup (h : Complete d nouts order) {p : SIdx × α} (hp : p ∈ d.map) :
    d.map.lookup p.1 = some p.2 := by
  have hs := h.sorted
  revert hp hs
  generalize d.map = m
  intro hp hs
  induction m with
  | nil => simp at hp
  | cons q t ih =>
    rw [List.pairwise_cons] at hs
    obtain ⟨q1, q2⟩ := q
    rw [List.lookup_cons]
    rcases List.mem_cons.mp hp with rfl | hp
    · simp
    · have hne : p.1 ≠ q1 := by
        intro he
        have := hs.1 p hp
        rw [he] at this
        exact Less.irrefl _ this
      rw [beq_eq_false_iff_ne.mpr hne]
      exact ih hp hs.2

/-- The values of a part of the tensor whose keys are known. -/
theorem Complete.values_of (h : Complete d nouts order) (p : SIdx × α → Bool) {ks : List SIdx}
    (hks : ks.Pairwise Less)
    (hmem : ∀ v, v ∈ ks ↔ ∃ q ∈ d.map, q.1 = v ∧ p q = true) :
    ((d.map.filter p).map (·.2)).map some = ks.map (fun v => d.map.lookup v) := by
  have hkeys : (d.map.filter p).map (·.1) = ks := by
    apply keys_ext
    · rw [List.pairwise_map]; exact h.sorted.filter _
    · exact hks
    · intro v
      rw [hmem]
      simp only [List.mem_map, List.mem_filter]
      constructor
      · rintro ⟨q, ⟨h1, h2⟩, h3⟩; exact ⟨q, h1, h3, h2⟩
      · rintro ⟨q, h1, h3, h2⟩; exact ⟨q, ⟨h1, h2⟩, h3⟩
  rw [← hkeys, List.map_map, List.map_map]
  apply List.map_congr_left
  intro q hq
  simp only [Function.comp_apply]
  rw [h.lookup (List.mem_filter.mp hq).1]

end Heyoka.Dtens
