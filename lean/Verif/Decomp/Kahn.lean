import Verif.Decomp.Model
import Mathlib.Data.List.Sort
import Mathlib.Data.List.Dedup
import Mathlib.Data.List.NodupEquivFin
import Mathlib.Data.List.Perm.Subperm

/-!
# Kahn's algorithm

The loop of the topological sort, for any graph whose edges go from smaller to larger vertices.
-/

namespace Heyoka.Sym

/-- The graphs of decompositions: the vertices are `0, …, n`, every edge goes from a smaller to a larger
vertex, every vertex other than 0 has an incoming edge, the only edge to a vertex between 1 and
`nvars` comes from 0. -/
structure GraphOk (n nvars : Nat) (es : List (Nat × Nat)) : Prop where
  nodup : es.Nodup
  lt : ∀ s t, (s, t) ∈ es → s < t ∧ t ≤ n
  inEdge : ∀ t, 0 < t → t ≤ n → ∃ s, (s, t) ∈ es
  vars : ∀ t, 0 < t → t ≤ nvars → (0, t) ∈ es ∧ ∀ s, (s, t) ∈ es → s = 0
  nvars_le : nvars ≤ n

theorem kahnTargets_eq (v : Nat) (ts : List Nat) : ∀ (es : List (Nat × Nat)) (q : List Nat),
    es.Nodup → ts.Nodup →
    (kahnTargets v ts es q).1.Nodup ∧
    (∀ p, p ∈ (kahnTargets v ts es q).1 ↔ p ∈ es ∧ ¬ (p.1 = v ∧ p.2 ∈ ts)) ∧
    (kahnTargets v ts es q).2 = q ++ ts.filter fun t => es.all fun p => !(p.2 == t) || p.1 == v := by
  induction ts with
  | nil => intro es q he _; simp [kahnTargets, he]
  | cons t ts ih =>
    intro es q he ht
    obtain ⟨hnt, hts⟩ := List.nodup_cons.1 ht
    have he' : (es.erase (v, t)).Nodup := he.erase _
    have hmem : ∀ p, p ∈ es.erase (v, t) ↔ p ∈ es ∧ p ≠ (v, t) := by
      intro p; rw [he.mem_erase_iff, and_comm]
    have hany : (es.erase (v, t)).any (fun p => p.2 == t) = true ↔
        ¬ ((es.all fun p => !(p.2 == t) || p.1 == v) = true) := by
      simp only [List.any_eq_true, beq_iff_eq, List.all_eq_true, Bool.or_eq_true, Bool.not_eq_true',
        beq_eq_false_iff_ne, ne_eq, hmem]
      push Not
      constructor
      · rintro ⟨⟨a, b⟩, ⟨h1, h2⟩, rfl⟩
        exact ⟨(a, b), h1, rfl, fun h => h2 (by simp at h; rw [h])⟩
      · rintro ⟨⟨a, b⟩, h1, rfl, h2⟩
        exact ⟨(a, b), ⟨h1, fun h => h2 (by simp at h; exact h)⟩, rfl⟩
    have hfil : ts.filter (fun t' => (es.erase (v, t)).all fun p => !(p.2 == t') || p.1 == v) =
        ts.filter fun t' => es.all fun p => !(p.2 == t') || p.1 == v := by
      refine List.filter_congr fun t' ht' => ?_
      have hne : t' ≠ t := fun h => hnt (h ▸ ht')
      rw [Bool.eq_iff_iff]
      simp only [List.all_eq_true, Bool.or_eq_true, Bool.not_eq_true', beq_eq_false_iff_ne, ne_eq,
        beq_iff_eq, hmem]
      constructor
      · intro h p hp
        by_cases hpe : p = (v, t)
        · left; rw [hpe]; exact fun h => hne h.symm
        · exact h p ⟨hp, hpe⟩
      · exact fun h p hp => h p hp.1
    have hmem2 : ∀ p : Nat × Nat, ((p ∈ es ∧ p ≠ (v, t)) ∧ ¬ (p.1 = v ∧ p.2 ∈ ts)) ↔
        p ∈ es ∧ ¬ (p.1 = v ∧ p.2 ∈ t :: ts) := by
      rintro ⟨a, b⟩
      simp only [ne_eq, Prod.mk.injEq, List.mem_cons]
      tauto
    rw [kahnTargets]
    split
    · rename_i h
      obtain ⟨h1, h2, h3⟩ := ih (es.erase (v, t)) q he' hts
      refine ⟨h1, fun p => by rw [h2, hmem, hmem2], ?_⟩
      rw [h3, hfil, List.filter_cons, if_neg (hany.1 h)]
    · rename_i h
      obtain ⟨h1, h2, h3⟩ := ih (es.erase (v, t)) (q ++ [t]) he' hts
      refine ⟨h1, fun p => by rw [h2, hmem, hmem2], ?_⟩
      have : (es.all fun p => !(p.2 == t) || p.1 == v) = true := by
        by_contra hc; exact h (hany.2 hc)
      rw [h3, hfil, List.filter_cons, if_pos this, List.append_assoc]
      rfl

/-- What holds at every iteration: `es` are the edges whose source is not in the result, the result and
the queue contain the vertices without incoming edges in `es`, the result is a topological order. -/
structure KahnInv (n nvars : Nat) (es0 es : List (Nat × Nat)) (q res : List Nat) : Prop where
  nodup_es : es.Nodup
  mem_es : ∀ p, p ∈ es ↔ p ∈ es0 ∧ p.1 ∉ res
  nodup : (res ++ q).Nodup
  mem : ∀ t, t ∈ res ++ q ↔ t ≤ n ∧ ∀ s, (s, t) ∉ es
  topo : ∀ a t b, res = a ++ t :: b → ∀ s, (s, t) ∈ es0 → s ∈ a

theorem KahnInv.step {n nvars : Nat} {es0 es : List (Nat × Nat)} {v : Nat} {q res : List Nat}
    (h0 : GraphOk n nvars es0) (h : KahnInv n nvars es0 es (v :: q) res) (ts : List Nat)
    (hts : ts.Nodup) (hmem : ∀ t, t ∈ ts ↔ (v, t) ∈ es) :
    KahnInv n nvars es0 (kahnTargets v ts es q).1 (kahnTargets v ts es q).2 (res ++ [v]) := by
  obtain ⟨h1, h2, h3⟩ := kahnTargets_eq v ts es q h.nodup_es hts
  have hes : ∀ p, p ∈ (kahnTargets v ts es q).1 ↔ p ∈ es0 ∧ p.1 ∉ res ++ [v] := by
    rintro ⟨a, b⟩
    rw [h2, h.mem_es, List.mem_append, List.mem_singleton]
    constructor
    · rintro ⟨⟨h4, h5⟩, h6⟩
      refine ⟨h4, fun hc => ?_⟩
      rcases hc with hc | hc
      · exact h5 hc
      · simp only at hc
        subst hc
        exact h6 ⟨rfl, (hmem b).2 ((h.mem_es _).2 ⟨h4, h5⟩)⟩
    · rintro ⟨h4, h5⟩
      push Not at h5
      exact ⟨⟨h4, h5.1⟩, fun hc => h5.2 hc.1⟩
  have hvres : v ∉ res := by
    have := h.nodup
    rw [List.nodup_append] at this
    intro hc
    exact this.2.2 v hc v (by simp) rfl
  have hold : ∀ t, t ∈ ts → t ∉ res ++ v :: q := by
    intro t ht hc
    exact ((h.mem t).1 hc).2 v ((hmem t).1 ht)
  refine ⟨h1, hes, ?_, ?_, ?_⟩
  · rw [h3]
    have : res ++ [v] ++ (q ++ ts.filter fun t => es.all fun p => !(p.2 == t) || p.1 == v) =
        (res ++ v :: q) ++ ts.filter fun t => es.all fun p => !(p.2 == t) || p.1 == v := by simp
    rw [this, List.nodup_append]
    refine ⟨h.nodup, hts.filter _, fun a ha b hb hab => ?_⟩
    subst hab
    exact hold a (List.mem_filter.1 hb).1 ha
  · intro t
    rw [h3]
    have : res ++ [v] ++ (q ++ ts.filter fun t => es.all fun p => !(p.2 == t) || p.1 == v) =
        (res ++ v :: q) ++ ts.filter fun t => es.all fun p => !(p.2 == t) || p.1 == v := by simp
    rw [this, List.mem_append, List.mem_filter, h.mem]
    simp only [List.all_eq_true, Bool.or_eq_true, Bool.not_eq_true', beq_eq_false_iff_ne, ne_eq,
      beq_iff_eq, hmem, h2]
    constructor
    · rintro (⟨h4, h5⟩ | ⟨h4, h5⟩)
      · exact ⟨h4, fun s hs => h5 s hs.1⟩
      · refine ⟨(h0.lt v t ((h.mem_es _).1 h4).1).2, fun s hs => hs.2 ⟨?_, h4⟩⟩
        rcases h5 (s, t) hs.1 with h6 | h6
        · exact absurd rfl h6
        · exact h6
    · rintro ⟨h4, h5⟩
      by_cases hv : (v, t) ∈ es
      · right
        refine ⟨hv, fun p hp => ?_⟩
        by_cases hpt : p.2 = t
        · right
          by_contra hc
          exact h5 p.1 ⟨by rw [← hpt]; exact hp, fun h6 => hc h6.1⟩
        · exact .inl hpt
      · left
        refine ⟨h4, fun s hs => h5 s ⟨hs, ?_⟩⟩
        rintro ⟨rfl, h6⟩
        exact hv hs
  · intro a t b hab s hs
    rcases List.eq_nil_or_concat b with rfl | ⟨b', x, rfl⟩
    · obtain ⟨h4, h5⟩ := List.append_inj' hab rfl
      simp only [List.cons.injEq, and_true] at h5
      subst h4 h5
      have := (h.mem v).1 (by simp)
      have h6 := this.2 s
      rw [h.mem_es] at h6
      by_contra hc
      exact h6 ⟨hs, hc⟩
    · rw [List.concat_eq_append, ← List.cons_append, ← List.append_assoc] at hab
      obtain ⟨h4, -⟩ := List.append_inj' hab rfl
      exact h.topo a t b' h4 s hs

/-- The loop ends within `n + 1` iterations, with a topological order of all the vertices that starts
like the result and the queue at the beginning, and without remaining edges. -/
theorem kahnLoop_spec {n nvars : Nat} {es0 : List (Nat × Nat)} (h0 : GraphOk n nvars es0) (fuel : Nat) :
    ∀ (es : List (Nat × Nat)) (q res : List Nat), KahnInv n nvars es0 es q res →
      (∀ r, kahnLoop fuel es q res = some r → KahnInv n nvars es0 r.2 [] r.1 ∧ res ++ q <+: r.1) ∧
      (n + 1 ≤ res.length + fuel → ∃ r, kahnLoop fuel es q res = some r) := by
  induction fuel with
  | zero =>
    intro es q res h
    cases q with
    | nil => exact ⟨fun r hr => by
        simp only [kahnLoop, Option.some.injEq] at hr; subst hr; exact ⟨h, by simp⟩,
        fun _ => ⟨_, rfl⟩⟩
    | cons v q =>
      refine ⟨fun r hr => by simp [kahnLoop] at hr, fun hl => ?_⟩
      exfalso
      have hsub : (res ++ v :: q) ⊆ List.range (n + 1) := fun t ht => by
        have := ((h.mem t).1 ht).1
        simp; omega
      have := (h.nodup.subperm hsub).length_le
      simp at this
      omega
  | succ fuel ih =>
    intro es q res h
    cases q with
    | nil => exact ⟨fun r hr => by
        simp only [kahnLoop, Option.some.injEq] at hr; subst hr; exact ⟨h, by simp⟩,
        fun _ => ⟨_, rfl⟩⟩
    | cons v q =>
      have hp := List.perm_insertionSort (· ≤ ·) ((es.filter fun p => p.1 == v).map (·.2))
      have hmem : ∀ t, t ∈ ((es.filter fun p => p.1 == v).map (·.2)).insertionSort (· ≤ ·) ↔
          (v, t) ∈ es := by
        intro t
        rw [hp.mem_iff, List.mem_map]
        constructor
        · rintro ⟨⟨a, b⟩, h1, rfl⟩
          obtain ⟨h2, h3⟩ := List.mem_filter.1 h1
          simp only [beq_iff_eq] at h3
          subst h3
          exact h2
        · exact fun h1 => ⟨(v, t), List.mem_filter.2 ⟨h1, by simp⟩, rfl⟩
      have hnd : (((es.filter fun p => p.1 == v).map (·.2)).insertionSort (· ≤ ·)).Nodup := by
        rw [hp.nodup_iff]
        refine List.Nodup.map_on ?_ (h.nodup_es.filter _)
        rintro ⟨a, b⟩ h1 ⟨c, d⟩ h2 rfl
        have h3 := (List.mem_filter.1 h1).2
        have h4 := (List.mem_filter.1 h2).2
        simp only [beq_iff_eq] at h3 h4
        rw [h3, h4]
      have hstep := h.step h0 _ hnd hmem
      obtain ⟨h1, h2⟩ := ih _ _ _ hstep
      refine ⟨fun r hr => ?_, fun hl => h2 (by simp; omega)⟩
      obtain ⟨h3, h4⟩ := h1 r hr
      refine ⟨h3, List.IsPrefix.trans ?_ h4⟩
      rw [(kahnTargets_eq v _ es q h.nodup_es hnd).2.2]
      exact ⟨_, by simp; rfl⟩

theorem kahn_all {n nvars : Nat} {es0 es : List (Nat × Nat)} {res : List Nat} (h0 : GraphOk n nvars es0)
    (h : KahnInv n nvars es0 es [] res) : res.Perm (List.range (n + 1)) ∧ es = [] := by
  have hall : ∀ t, t ≤ n → t ∈ res := by
    intro t
    induction t using Nat.strong_induction_on with
    | _ t ih =>
      intro ht
      have := (h.mem t)
      rw [List.append_nil] at this
      refine this.2 ⟨ht, fun s hs => ?_⟩
      obtain ⟨h1, h2⟩ := (h.mem_es _).1 hs
      obtain ⟨h3, h4⟩ := h0.lt s t h1
      exact h2 (ih s h3 (by omega))
  constructor
  · refine (List.perm_ext_iff_of_nodup ?_ List.nodup_range).2 fun t => ?_
    · simpa using h.nodup
    · have := h.mem t
      rw [List.append_nil] at this
      rw [List.mem_range]
      exact ⟨fun ht => by have := (this.1 ht).1; omega, fun ht => hall t (by omega)⟩
  · refine List.eq_nil_iff_forall_not_mem.2 fun p hp => ?_
    obtain ⟨h1, h2⟩ := (h.mem_es p).1 hp
    have := h0.lt p.1 p.2 h1
    exact h2 (hall p.1 (by omega))

theorem sorted_range_prefix {m : Nat} (l : List Nat) : ∀ k, l.Pairwise (· ≤ ·) → l.Nodup →
    (∀ t, k ≤ t → t < k + m → t ∈ l) → (∀ t ∈ l, k ≤ t) → List.range' k m <+: l := by
  induction m generalizing l with
  | zero => intro k _ _ _ _; simp
  | succ m ih =>
    intro k hs hn hm hk
    cases l with
    | nil => have := hm k (by omega) (by omega); simp at this
    | cons x l =>
      rw [List.pairwise_cons] at hs
      rw [List.nodup_cons] at hn
      have hx : x = k := by
        have h1 := hk x (by simp)
        have h2 := hm k (by omega) (by omega)
        rcases List.mem_cons.1 h2 with h2 | h2
        · exact h2.symm
        · have := hs.1 k h2; omega
      subst hx
      rw [List.range'_succ, List.prefix_cons_inj]
      refine ih l (x + 1) hs.2 hn.2 (fun t h1 h2 => ?_) (fun t ht => ?_)
      · have := hm t (by omega) (by omega)
        rcases List.mem_cons.1 this with h3 | h3
        · omega
        · exact h3
      · have h1 := hs.1 t ht
        have : t ≠ x := fun hc => hn.1 (hc ▸ ht)
        omega

/-- The sort started from the root alone: with enough fuel it ends, and whenever it ends the result is a
topological order of all the vertices that begins with `0, 1, …, nvars`. -/
theorem kahn_spec {n nvars : Nat} {es0 : List (Nat × Nat)} (h0 : GraphOk n nvars es0) (fuel : Nat) :
    (∀ r, kahnLoop fuel es0 [0] [] = some r → r.1.Perm (List.range (n + 1)) ∧ r.2 = [] ∧
      List.range (nvars + 1) <+: r.1 ∧ ∀ a t b, r.1 = a ++ t :: b → ∀ s, (s, t) ∈ es0 → s ∈ a) ∧
    (n + 1 ≤ fuel → ∃ r, kahnLoop fuel es0 [0] [] = some r) := by
  have hinv : KahnInv n nvars es0 es0 [0] [] := by
    refine ⟨h0.nodup, by simp, by simp, fun t => ?_, by simp⟩
    simp only [List.nil_append, List.mem_singleton]
    constructor
    · rintro rfl
      exact ⟨by omega, fun s hs => by have := h0.lt s 0 hs; omega⟩
    · rintro ⟨h1, h2⟩
      by_contra hc
      obtain ⟨s, hs⟩ := h0.inEdge t (by omega) h1
      exact h2 s hs
  obtain ⟨h1, h2⟩ := kahnLoop_spec h0 fuel es0 [0] [] hinv
  refine ⟨fun r hr => ?_, fun hl => h2 (by simpa using hl)⟩
  obtain ⟨h3, -⟩ := h1 r hr
  obtain ⟨h4, h5⟩ := kahn_all h0 h3
  refine ⟨h4, h5, ?_, h3.topo⟩
  -- the first iteration
  cases fuel with
  | zero => simp [kahnLoop] at hr
  | succ fuel =>
    have hp := List.perm_insertionSort (· ≤ ·) ((es0.filter fun p => p.1 == 0).map (·.2))
    have hmem : ∀ t, t ∈ ((es0.filter fun p => p.1 == 0).map (·.2)).insertionSort (· ≤ ·) ↔
        (0, t) ∈ es0 := by
      intro t
      rw [hp.mem_iff, List.mem_map]
      constructor
      · rintro ⟨⟨a, b⟩, h1, rfl⟩
        obtain ⟨h2, h3⟩ := List.mem_filter.1 h1
        simp only [beq_iff_eq] at h3
        subst h3
        exact h2
      · exact fun h1 => ⟨(0, t), List.mem_filter.2 ⟨h1, by simp⟩, rfl⟩
    have hnd : (((es0.filter fun p => p.1 == 0).map (·.2)).insertionSort (· ≤ ·)).Nodup := by
      rw [hp.nodup_iff]
      refine List.Nodup.map_on ?_ (h0.nodup.filter _)
      rintro ⟨a, b⟩ h1 ⟨c, d⟩ h2 rfl
      have h3 := (List.mem_filter.1 h1).2
      have h4 := (List.mem_filter.1 h2).2
      simp only [beq_iff_eq] at h3 h4
      rw [h3, h4]
    have hstep := hinv.step h0 _ hnd hmem
    obtain ⟨h6, -⟩ := kahnLoop_spec h0 fuel _ _ _ hstep
    obtain ⟨-, h7⟩ := h6 r hr
    rw [(kahnTargets_eq 0 _ es0 [] h0.nodup hnd).2.2] at h7
    have h8 : List.range' 1 nvars <+: (((es0.filter fun p => p.1 == 0).map (·.2)).insertionSort (· ≤ ·)).filter
        fun t => es0.all fun p => !(p.2 == t) || p.1 == 0 := by
      refine sorted_range_prefix _ 1 ?_ (hnd.filter _) (fun t h8 h9 => ?_) fun t ht => ?_
      · exact (List.pairwise_insertionSort _ _).filter _
      · refine List.mem_filter.2 ⟨(hmem t).2 (h0.vars t (by omega) (by omega)).1, ?_⟩
        simp only [List.all_eq_true, Bool.or_eq_true, Bool.not_eq_true', beq_eq_false_iff_ne, ne_eq,
          beq_iff_eq]
        rintro ⟨a, b⟩ hab
        by_cases hb : b = t
        · subst hb; exact .inr ((h0.vars b (by omega) (by omega)).2 a hab)
        · exact .inl hb
      · have := h0.lt 0 t ((hmem t).1 (List.mem_filter.1 ht).1)
        omega
    refine List.IsPrefix.trans ?_ h7
    rw [List.range_eq_range', List.range'_succ]
    simpa using h8

end Heyoka.Sym
