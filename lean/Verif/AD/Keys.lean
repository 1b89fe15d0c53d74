import Verif.AD.Model
import Verif.Dtens.Ranges

/-!
# The multi-indices of the derivatives
-/

set_option linter.unusedSectionVars false

namespace Heyoka.AD

open Heyoka.Dtens

/-! ### A further derivative -/

theorem addIdx_degree (j : Nat) (l : List (Nat × Nat)) : degree (addIdx j l) = degree l + 1 := by
  induction l with
  | nil => simp [addIdx, degree]
  | cons p l ih =>
    obtain ⟨k, o⟩ := p
    rw [addIdx]
    split_ifs
    · simp only [degree, List.map_cons, List.sum_cons] at ih ⊢; omega
    · simp only [degree, List.map_cons, List.sum_cons]; omega
    · simp only [degree, List.map_cons, List.sum_cons]; omega

theorem addIdx_mem {j : Nat} {l : List (Nat × Nat)} {q : Nat × Nat} (h : q ∈ addIdx j l) :
    q.1 = j ∨ ∃ r ∈ l, r.1 = q.1 := by
  induction l with
  | nil => simp [addIdx] at h; simp [h]
  | cons p l ih =>
    obtain ⟨k, o⟩ := p
    rw [addIdx] at h
    split_ifs at h with h1 h2
    · rcases List.mem_cons.1 h with rfl | h
      · exact .inr ⟨_, List.mem_cons_self, rfl⟩
      · rcases ih h with h | ⟨r, hr, he⟩
        · exact .inl h
        · exact .inr ⟨r, List.mem_cons_of_mem _ hr, he⟩
    · rcases List.mem_cons.1 h with rfl | h
      · exact .inl h2
      · exact .inr ⟨q, List.mem_cons_of_mem _ h, rfl⟩
    · rcases List.mem_cons.1 h with rfl | h
      · exact .inl rfl
      · exact .inr ⟨q, h, rfl⟩

theorem addIdx_sane {j : Nat} {l : List (Nat × Nat)} (h : Sane l) : Sane (addIdx j l) := by
  induction l with
  | nil => exact ⟨by simp [addIdx], by simp [addIdx]⟩
  | cons p l ih =>
    obtain ⟨k, o⟩ := p
    have ih := ih h.tail
    have hhead := h.head
    have ho : o ≠ 0 := h.2 (k, o) List.mem_cons_self
    rw [addIdx]
    split_ifs with h1 h2
    · refine ⟨List.pairwise_cons.2 ⟨fun q hq => ?_, ih.1⟩, fun q hq => ?_⟩
      · rcases addIdx_mem hq with h3 | ⟨r, hr, he⟩
        · simp only; omega
        · have := hhead r hr; simp only at this ⊢; omega
      · rcases List.mem_cons.1 hq with rfl | hq
        · exact ho
        · exact ih.2 q hq
    · refine ⟨List.pairwise_cons.2 ⟨fun q hq => hhead q hq, h.tail.1⟩, fun q hq => ?_⟩
      rcases List.mem_cons.1 hq with rfl | hq
      · simp
      · exact h.tail.2 q hq
    · refine ⟨List.pairwise_cons.2 ⟨fun q hq => ?_, h.1⟩, fun q hq => ?_⟩
      · rcases List.mem_cons.1 hq with rfl | hq
        · simp only; omega
        · have := hhead q hq; simp only at this ⊢; omega
      · rcases List.mem_cons.1 hq with rfl | hq
        · simp
        · exact h.2 q hq

theorem addIdx_inj {i j : Nat} {l m : List (Nat × Nat)} (hl : Sane l) (hm : Sane m) (hi : ∀ q ∈ l, i ≤ q.1)
    (hj : ∀ q ∈ m, j ≤ q.1) (h : addIdx i l = addIdx j m) : i = j ∧ l = m := by
  have key : ∀ {i : Nat} {l : List (Nat × Nat)}, Sane l → (∀ q ∈ l, i ≤ q.1) →
      ∃ o t, addIdx i l = (i, o + 1) :: t ∧ ((o = 0 ∧ l = t) ∨ (o ≠ 0 ∧ l = (i, o) :: t)) := by
    intro i l hl hi
    cases l with
    | nil => exact ⟨0, [], rfl, .inl ⟨rfl, rfl⟩⟩
    | cons p l =>
      obtain ⟨k, o⟩ := p
      have := hi (k, o) List.mem_cons_self
      simp only at this
      rw [addIdx, if_neg (by omega)]
      split_ifs with h2
      · subst h2
        exact ⟨o, l, rfl, .inr ⟨hl.2 (k, o) List.mem_cons_self, rfl⟩⟩
      · exact ⟨0, _, rfl, .inl ⟨rfl, rfl⟩⟩
  obtain ⟨o, t, h1, h2⟩ := key hl hi
  obtain ⟨o', t', h1', h2'⟩ := key hm hj
  rw [h1, h1'] at h
  simp only [List.cons.injEq, Prod.mk.injEq, Nat.add_right_cancel_iff] at h
  obtain ⟨⟨rfl, rfl⟩, rfl⟩ := h
  refine ⟨rfl, ?_⟩
  rcases h2 with ⟨h3, rfl⟩ | ⟨h3, rfl⟩ <;> rcases h2' with ⟨h4, rfl⟩ | ⟨h4, rfl⟩
  · rfl
  · exact absurd h3 h4
  · exact absurd h4 h3
  · rfl

/-- Every multi-index arises from one of a lower order by a further derivative with respect to the
first argument occurring in it. -/
theorem exists_addIdx {l : List (Nat × Nat)} (h : Sane l) (hne : l ≠ []) :
    ∃ j α, l = addIdx j α ∧ Sane α ∧ (∀ q ∈ α, j ≤ q.1) ∧ (∀ q ∈ α, ∃ r ∈ l, r.1 = q.1) ∧ (∃ r ∈ l, r.1 = j) ∧
      ∀ r ∈ l, j ≤ r.1 := by
  cases l with
  | nil => exact absurd rfl hne
  | cons p t =>
    obtain ⟨k, o⟩ := p
    have ho : o ≠ 0 := h.2 (k, o) List.mem_cons_self
    have hall : ∀ r ∈ (k, o) :: t, k ≤ r.1 := by
      intro r hr
      rcases List.mem_cons.1 hr with rfl | hr
      · exact le_rfl
      · exact (h.head r hr).le
    rcases Nat.eq_or_lt_of_le (Nat.one_le_iff_ne_zero.2 ho) with h1 | h1
    · refine ⟨k, t, ?_, h.tail, fun q hq => (h.head q hq).le, fun q hq => ⟨q, List.mem_cons_of_mem _ hq, rfl⟩,
        ⟨_, List.mem_cons_self, rfl⟩, hall⟩
      cases t with
      | nil => rw [addIdx, h1]
      | cons p t =>
        have := h.head p List.mem_cons_self
        simp only at this
        rw [addIdx, if_neg (by omega), if_neg (by omega), h1]
    · refine ⟨k, (k, o - 1) :: t, ?_, ⟨List.pairwise_cons.2 ⟨fun q hq => h.head q hq, h.tail.1⟩, fun q hq => ?_⟩,
        fun q hq => ?_, fun q hq => ?_, ⟨_, List.mem_cons_self, rfl⟩, hall⟩
      · rw [addIdx, if_neg (by omega), if_pos rfl]
        congr 2
        omega
      · rcases List.mem_cons.1 hq with rfl | hq
        · simp only; omega
        · exact h.tail.2 q hq
      · rcases List.mem_cons.1 hq with rfl | hq
        · exact le_rfl
        · exact (h.head q hq).le
      · rcases List.mem_cons.1 hq with rfl | hq
        · exact ⟨_, List.mem_cons_self, rfl⟩
        · exact ⟨q, List.mem_cons_of_mem _ hq, rfl⟩

/-! ### Sorting -/

section
variable {K : Type} [Field K]

theorem insertKey_ok {p : SIdx × Sym.Expr K} (hs : Sane p.1.2) (hf : degree p.1.2 < 2 ^ 32) :
    ∀ {l : List (SIdx × Sym.Expr K)}, SortedMap l → (∀ q ∈ l, q.1 ≠ p.1) →
      ∃ l', insertKey p l = .ok l' ∧ l'.Perm (p :: l) ∧ SortedMap l' := by
  intro l
  induction l with
  | nil =>
    intro _ _
    exact ⟨[p], rfl, .refl _, ⟨by simpa using hs, by simpa using hf, by simp⟩⟩
  | cons q l ih =>
    intro hm hne
    have hq := hm.sane q List.mem_cons_self
    have hqf := hm.fits q List.mem_cons_self
    have hm' : SortedMap l := ⟨fun r hr => hm.sane r (List.mem_cons_of_mem _ hr),
      fun r hr => hm.fits r (List.mem_cons_of_mem _ hr), (List.pairwise_cons.1 hm.sorted).2⟩
    obtain ⟨b, hb, hbl⟩ := cmp_eq hf hqf hs hq
    rw [insertKey, hb, Res.bind_ok]
    have hsane : ∀ l' : List (SIdx × Sym.Expr K), l'.Perm (p :: q :: l) → (∀ r ∈ l', Sane r.1.2) ∧ ∀ r ∈ l', degree r.1.2 < 2 ^ 32 := by
      intro l' hp
      constructor <;> intro r hr <;> rcases List.mem_cons.1 (hp.mem_iff.1 hr) with rfl | hr
      · exact hs
      · exact hm.sane r hr
      · exact hf
      · exact hm.fits r hr
    cases b with
    | true =>
      refine ⟨_, rfl, .refl _, (hsane _ (.refl _)).1, (hsane _ (.refl _)).2, List.pairwise_cons.2 ⟨fun r hr => ?_, hm.sorted⟩⟩
      have hpq := hbl.1 rfl
      rcases List.mem_cons.1 hr with rfl | hr
      · exact hpq
      · exact hpq.trans ((List.pairwise_cons.1 hm.sorted).1 r hr)
    | false =>
      obtain ⟨l', h1, h2, h3⟩ := ih hm' fun r hr => hne r (List.mem_cons_of_mem _ hr)
      have hperm : (q :: l').Perm (p :: q :: l) := (h2.cons q).trans (.swap _ _ _)
      refine ⟨q :: l', by rw [h1]; rfl, hperm, (hsane _ hperm).1, (hsane _ hperm).2,
        List.pairwise_cons.2 ⟨fun r hr => ?_, h3.sorted⟩⟩
      have hqp : Less q.1 p.1 := by
        rcases Less.tri hq hs (hne q List.mem_cons_self) with h | h
        · exact h
        · have := hbl.2 h; cases this
      rcases List.mem_cons.1 (h2.mem_iff.1 hr) with rfl | hr
      · exact hqp
      · exact (List.pairwise_cons.1 hm.sorted).1 r hr

theorem sortKeys_ok {l : List (SIdx × Sym.Expr K)} (hs : ∀ p ∈ l, Sane p.1.2) (hf : ∀ p ∈ l, degree p.1.2 < 2 ^ 32)
    (hn : (l.map (·.1)).Nodup) : ∃ l', sortKeys l = .ok l' ∧ l'.Perm l ∧ SortedMap l' := by
  induction l with
  | nil => exact ⟨[], rfl, .refl _, ⟨by simp, by simp, by simp⟩⟩
  | cons p l ih =>
    rw [List.map_cons, List.nodup_cons] at hn
    obtain ⟨l', h1, h2, h3⟩ := ih (fun q hq => hs q (List.mem_cons_of_mem _ hq))
      (fun q hq => hf q (List.mem_cons_of_mem _ hq)) hn.2
    obtain ⟨l'', h4, h5, h6⟩ := insertKey_ok (hs p List.mem_cons_self) (hf p List.mem_cons_self) h3 fun q hq he =>
      hn.1 (List.mem_map.2 ⟨q, h2.mem_iff.1 hq, he⟩)
    exact ⟨l'', by rw [sortKeys, h1, Res.bind_ok, h4], h5.trans (h2.cons p), h6⟩

end

/-! ### Accumulation of the new derivatives -/

section
variable {K : Type} [Field K]

/-- The map keeps the first entry for a key. -/
theorem foldl_addMap (news : List (SIdx × Sym.Expr K)) : ∀ acc : List (SIdx × Sym.Expr K), (acc.map (·.1)).Nodup →
    ((addDiffs false acc news).map (·.1)).Nodup ∧
    (∀ p ∈ addDiffs false acc news, p ∈ acc ∨ (p ∈ news ∧ ∀ q ∈ acc, q.1 ≠ p.1)) ∧
    (∀ p ∈ acc, p ∈ addDiffs false acc news) ∧
    ∀ p ∈ news, ∃ q ∈ addDiffs false acc news, q.1 = p.1 := by
  induction news with
  | nil => intro acc h; exact ⟨h, fun p hp => .inl hp, fun p hp => hp, by simp⟩
  | cons n news ih =>
    intro acc h
    by_cases hc : acc.any (·.1 == n.1) = true
    · have he : addDiffs false acc (n :: news) = addDiffs false acc news := by
        simp only [addDiffs, Bool.false_eq_true, if_false, List.foldl_cons, if_pos hc]
      rw [he]
      obtain ⟨h1, h2, h3, h4⟩ := ih acc h
      refine ⟨h1, fun p hp => ?_, h3, fun p hp => ?_⟩
      · rcases h2 p hp with h | ⟨h, h'⟩
        · exact .inl h
        · exact .inr ⟨List.mem_cons_of_mem _ h, h'⟩
      · rcases List.mem_cons.1 hp with rfl | hp
        · rw [List.any_eq_true] at hc
          obtain ⟨q, hq, he⟩ := hc
          exact ⟨q, h3 q hq, by simpa using he⟩
        · exact h4 p hp
    · have he : addDiffs false acc (n :: news) = addDiffs false (acc ++ [n]) news := by
        simp only [addDiffs, Bool.false_eq_true, if_false, List.foldl_cons, if_neg hc]
      rw [he]
      have hnot : ∀ q ∈ acc, q.1 ≠ n.1 := by
        intro q hq he
        exact hc (List.any_eq_true.2 ⟨q, hq, by simpa using he⟩)
      have hnd : ((acc ++ [n]).map (·.1)).Nodup := by
        rw [List.map_append, List.nodup_append]
        refine ⟨h, by simp, fun a ha b hb => ?_⟩
        obtain ⟨q, hq, rfl⟩ := List.mem_map.1 ha
        simp only [List.map_cons, List.map_nil, List.mem_singleton] at hb
        subst hb
        exact hnot q hq
      obtain ⟨h1, h2, h3, h4⟩ := ih (acc ++ [n]) hnd
      refine ⟨h1, fun p hp => ?_, fun p hp => h3 p (List.mem_append_left _ hp), fun p hp => ?_⟩
      · rcases h2 p hp with h | ⟨h, h'⟩
        · rcases List.mem_append.1 h with h | h
          · exact .inl h
          · simp only [List.mem_singleton] at h
            subst h
            exact .inr ⟨List.mem_cons_self, hnot⟩
        · exact .inr ⟨List.mem_cons_of_mem _ h, fun q hq => h' q (List.mem_append_left _ hq)⟩
      · rcases List.mem_cons.1 hp with rfl | hp
        · exact ⟨p, h3 p (by simp), rfl⟩
        · exact h4 p hp

end

end Heyoka.AD
