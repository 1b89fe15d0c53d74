import Verif.Dtens.Model
import Mathlib.Data.List.Basic
import Mathlib.Data.List.Sort
import Mathlib.Order.Basic
import Mathlib.Tactic.Linarith

/-!
# The order of derivative indices
-/

namespace Heyoka.Dtens

/-- The order of differentiation with respect to an argument. -/
def dense (l : List (Nat × Nat)) (i : Nat) : Nat :=
  match l.find? (fun p => p.1 == i) with
  | none => 0
  | some p => p.2

/-- The total order of differentiation. -/
def degree (l : List (Nat × Nat)) : Nat := (l.map (·.2)).sum

/-- Well-formed index lists: strictly ascending argument indices and nonzero orders. -/
def Sane (l : List (Nat × Nat)) : Prop := l.Pairwise (·.1 < ·.1) ∧ ∀ p ∈ l, p.2 ≠ 0

instance (l : List (Nat × Nat)) : Decidable (Sane l) := by unfold Sane; infer_instance

/-- Reverse lexicographic comparison: the first argument with respect to which the orders of
differentiation differ has the larger order on the left. -/
def RevLex (f g : Nat → Nat) : Prop := ∃ i, (∀ j < i, f j = g j) ∧ g i < f i

/-- The specified order: total order of differentiation, component, reverse lexicographic
comparison of the dense orders. -/
def Less (v1 v2 : SIdx) : Prop :=
  degree v1.2 < degree v2.2 ∨ (degree v1.2 = degree v2.2 ∧
    (v1.1 < v2.1 ∨ (v1.1 = v2.1 ∧ RevLex (dense v1.2) (dense v2.2))))

theorem dense_nil (i : Nat) : dense [] i = 0 := rfl

theorem dense_cons (p : Nat × Nat) (t : List (Nat × Nat)) (i : Nat) :
    dense (p :: t) i = if p.1 = i then p.2 else dense t i := by
  unfold dense
  rw [List.find?_cons]
  by_cases h : p.1 = i
  · simp [h]
  · have : (p.1 == i) = false := by simp [h]
    simp [h, this]

theorem dense_eq_zero {l : List (Nat × Nat)} {i : Nat} (h : ∀ p ∈ l, p.1 ≠ i) : dense l i = 0 := by
  induction l with
  | nil => rfl
  | cons p t ih =>
    rw [dense_cons, if_neg (h p (by simp))]
    exact ih fun q hq => h q (by simp [hq])

theorem Sane.tail {p : Nat × Nat} {t : List (Nat × Nat)} (h : Sane (p :: t)) : Sane t :=
  ⟨(List.pairwise_cons.mp h.1).2, fun q hq => h.2 q (by simp [hq])⟩

theorem Sane.head {p : Nat × Nat} {t : List (Nat × Nat)} (h : Sane (p :: t)) :
    ∀ q ∈ t, p.1 < q.1 := (List.pairwise_cons.mp h.1).1

theorem Sane.dense_le {p : Nat × Nat} {t : List (Nat × Nat)} (h : Sane (p :: t)) {i : Nat}
    (hi : i ≤ p.1) : dense t i = 0 :=
  dense_eq_zero fun q hq => by have := h.head q hq; omega

theorem Sane.dense_lt {p : Nat × Nat} {t : List (Nat × Nat)} (h : Sane (p :: t)) {i : Nat}
    (hi : i < p.1) : dense (p :: t) i = 0 := by
  rw [dense_cons, if_neg (by omega)]; exact h.dense_le hi.le

theorem sanityLoop_iff (prev : Nat) (l : List (Nat × Nat)) :
    sanityLoop prev l = true ↔ (∀ p ∈ l, prev < p.1) ∧ Sane l := by
  induction l generalizing prev with
  | nil => simp [sanityLoop, Sane]
  | cons p t ih =>
    obtain ⟨i, n⟩ := p
    unfold sanityLoop
    split
    · rename_i h
      constructor
      · intro h; cases h
      · rintro ⟨h1, _⟩; exact absurd (h1 (i, n) (by simp)) (by simpa using h)
    · rename_i h
      split
      · rename_i h2
        constructor
        · intro h; cases h
        · rintro ⟨_, h3⟩; exact absurd h2 (h3.2 (i, n) (by simp))
      · rename_i h2
        rw [ih]
        push Not at h
        constructor
        · rintro ⟨h3, h4⟩
          refine ⟨?_, List.pairwise_cons.mpr ⟨fun q hq => h3 q hq, h4.1⟩, ?_⟩
          · intro q hq
            rcases List.mem_cons.mp hq with rfl | hq
            · exact h
            · have := h3 q hq; omega
          · intro q hq
            rcases List.mem_cons.mp hq with rfl | hq
            · exact h2
            · exact h4.2 q hq
        · rintro ⟨h3, h4⟩
          exact ⟨fun q hq => h4.head q hq, h4.tail⟩

theorem sanityCheck_iff (v : SIdx) : sanityCheck v = true ↔ Sane v.2 := by
  obtain ⟨c, l⟩ := v
  cases l with
  | nil => simp [sanityCheck, Sane]
  | cons p t =>
    obtain ⟨i, n⟩ := p
    unfold sanityCheck
    simp only
    split
    · rename_i h
      constructor
      · intro h; cases h
      · intro h3; exact absurd h (h3.2 (i, n) (by simp))
    · rename_i h
      rw [sanityLoop_iff]
      constructor
      · rintro ⟨h3, h4⟩
        refine ⟨List.pairwise_cons.mpr ⟨fun q hq => h3 q hq, h4.1⟩, ?_⟩
        intro q hq
        rcases List.mem_cons.mp hq with rfl | hq
        · exact h
        · exact h4.2 q hq
      · intro h4; exact ⟨fun q hq => h4.head q hq, h4.tail⟩

theorem degLoop_eq (acc : Nat) (l : List (Nat × Nat)) (h0 : acc < 2 ^ 32) :
    degLoop acc l = if acc + degree l < 2 ^ 32 then .ok (acc + degree l) else .throw := by
  induction l generalizing acc with
  | nil => simp only [degLoop, degree, List.map_nil, List.sum_nil, add_zero, h0, if_true]
  | cons p t ih =>
    unfold degLoop
    have hd : degree (p :: t) = p.2 + degree t := by simp [degree]
    rw [hd]
    split
    · rename_i h
      rw [ih _ h, add_assoc]
    · rename_i h
      rw [if_neg (by omega)]

theorem degree_pos {l : List (Nat × Nat)} (h : Sane l) (hne : l ≠ []) : 0 < degree l := by
  cases l with
  | nil => exact absurd rfl hne
  | cons p t =>
    have := h.2 p (by simp)
    simp only [degree, List.map_cons, List.sum_cons]
    omega

theorem cmpLoop_iff : ∀ (l1 l2 : List (Nat × Nat)), Sane l1 → Sane l2 → degree l1 = degree l2 →
    (cmpLoop l1 l2 = true ↔ RevLex (dense l1) (dense l2))
  | [], [], _, _, _ => by
    refine ⟨fun h => by simp [cmpLoop] at h, ?_⟩
    rintro ⟨i, _, h⟩; simp [dense_nil] at h
  | [], q :: t, _, h2, hd => by
    exfalso; have := degree_pos h2 (by simp); simp [degree] at hd this; omega
  | p :: t, [], h1, _, hd => by
    exfalso; have := degree_pos h1 (by simp); simp [degree] at hd this; omega
  | (i1, n1) :: t1, (i2, n2) :: t2, h1, h2, hd => by
    have hn1 : n1 ≠ 0 := h1.2 (i1, n1) (by simp)
    have hn2 : n2 ≠ 0 := h2.2 (i2, n2) (by simp)
    have hd1 : dense ((i1, n1) :: t1) i1 = n1 := by rw [dense_cons]; simp
    have hd2 : dense ((i2, n2) :: t2) i2 = n2 := by rw [dense_cons]; simp
    unfold cmpLoop
    split
    · rename_i h
      refine ⟨fun _ => ⟨i1, fun j hj => ?_, ?_⟩, fun _ => rfl⟩
      · rw [h1.dense_lt hj, h2.dense_lt (show j < i2 by omega)]
      · rw [hd1, h2.dense_lt (show i1 < i2 by omega)]; omega
    · split
      · rename_i h
        refine ⟨fun h => (by cases h), ?_⟩
        rintro ⟨i, hj, hi⟩
        exfalso
        rcases lt_trichotomy i i2 with h3 | h3 | h3
        · rw [h1.dense_lt (show i < i1 by omega)] at hi; omega
        · rw [h3, h1.dense_lt (show i2 < i1 by omega)] at hi; omega
        · have := hj i2 h3
          rw [hd2, h1.dense_lt (show i2 < i1 by omega)] at this; omega
      · have hi : i1 = i2 := by omega
        subst hi
        split
        · rename_i h
          refine ⟨fun _ => ⟨i1, fun j hj => ?_, ?_⟩, fun _ => rfl⟩
          · rw [h1.dense_lt hj, h2.dense_lt hj]
          · rw [hd1, hd2]; exact h
        · split
          · rename_i h
            refine ⟨fun h => (by cases h), ?_⟩
            rintro ⟨i, hj, hi⟩
            exfalso
            rcases lt_trichotomy i i1 with h3 | h3 | h3
            · rw [h1.dense_lt h3, h2.dense_lt h3] at hi; omega
            · rw [h3, hd1, hd2] at hi; omega
            · have := hj i1 h3
              rw [hd1, hd2] at this; omega
          · have hn : n1 = n2 := by omega
            subst hn
            have hdt : degree t1 = degree t2 := by
              simp only [degree, List.map_cons, List.sum_cons] at hd ⊢; omega
            rw [cmpLoop_iff t1 t2 h1.tail h2.tail hdt]
            constructor
            · rintro ⟨i, hj, hi⟩
              refine ⟨i, fun j hji => ?_, ?_⟩
              · rw [dense_cons, dense_cons]
                split
                · rfl
                · exact hj j hji
              · have hne : i1 ≠ i := by
                  rintro rfl
                  rw [h1.dense_le (le_refl _)] at hi; omega
                rw [dense_cons, dense_cons, if_neg hne, if_neg hne]; exact hi
            · rintro ⟨i, hj, hi⟩
              have hne : i1 ≠ i := by
                rintro rfl
                rw [hd1, hd2] at hi; omega
              refine ⟨i, fun j hji => ?_, ?_⟩
              · by_cases h : i1 = j
                · subst h
                  rw [h1.dense_le (le_refl _), h2.dense_le (le_refl _)]
                · have := hj j hji
                  rwa [dense_cons, dense_cons, if_neg h, if_neg h] at this
              · rwa [dense_cons, dense_cons, if_neg hne, if_neg hne] at hi

theorem cmp_eq {v1 v2 : SIdx} (h1 : degree v1.2 < 2 ^ 32) (h2 : degree v2.2 < 2 ^ 32)
    (s1 : Sane v1.2) (s2 : Sane v2.2) :
    ∃ b, cmp v1 v2 = .ok b ∧ (b = true ↔ Less v1 v2) := by
  unfold cmp Less
  rw [degLoop_eq _ _ (by norm_num), degLoop_eq _ _ (by norm_num)]
  simp only [zero_add, h1, h2, if_true, Res.bind_ok]
  split
  · rename_i h; exact ⟨true, rfl, by simp [h]⟩
  · split
    · rename_i h h'
      exact ⟨false, rfl, by
        constructor
        · intro h; cases h
        · rintro (h3 | ⟨h3, _⟩) <;> omega⟩
    · have hd : degree v1.2 = degree v2.2 := by omega
      split
      · rename_i h; exact ⟨true, rfl, by simp [hd, h]⟩
      · split
        · rename_i h _
          exact ⟨false, rfl, by
            constructor
            · intro h; cases h
            · rintro (h3 | ⟨_, h3 | ⟨h3, _⟩⟩) <;> omega⟩
        · have hc : v1.1 = v2.1 := by omega
          refine ⟨_, rfl, ?_⟩
          rw [cmpLoop_iff _ _ s1 s2 hd]
          simp [hd, hc]

theorem RevLex.trans {f g h : Nat → Nat} (h1 : RevLex f g) (h2 : RevLex g h) : RevLex f h := by
  obtain ⟨i, hi1, hi2⟩ := h1
  obtain ⟨j, hj1, hj2⟩ := h2
  rcases lt_trichotomy i j with hij | hij | hij
  · exact ⟨i, fun k hk => (hi1 k hk).trans (hj1 k (by omega)), by rw [← hj1 i hij]; exact hi2⟩
  · subst hij; exact ⟨i, fun k hk => (hi1 k hk).trans (hj1 k hk), hj2.trans hi2⟩
  · exact ⟨j, fun k hk => (hi1 k (by omega)).trans (hj1 k hk), by rw [hi1 j hij]; exact hj2⟩

theorem RevLex.irrefl (f : Nat → Nat) : ¬ RevLex f f := by
  rintro ⟨i, _, h⟩; exact lt_irrefl _ h

theorem RevLex.tri {f g : Nat → Nat} (h : f ≠ g) : RevLex f g ∨ RevLex g f := by
  have hex : ∃ i, f i ≠ g i := by
    by_contra hc; push Not at hc; exact h (funext hc)
  classical
  have h1 := Nat.find_spec hex
  have h2 : ∀ j < Nat.find hex, f j = g j := fun j hj => by
    by_contra hc; exact Nat.find_min hex hj hc
  rcases lt_or_gt_of_ne h1 with h3 | h3
  · exact .inr ⟨_, fun j hj => (h2 j hj).symm, h3⟩
  · exact .inl ⟨_, h2, h3⟩

/-- Well-formed index lists are determined by the dense orders. -/
theorem dense_inj : ∀ (l1 l2 : List (Nat × Nat)), Sane l1 → Sane l2 →
    dense l1 = dense l2 → l1 = l2
  | [], [], _, _, _ => rfl
  | [], (i, n) :: t, _, h2, h => by
    have := congrFun h i
    rw [dense_nil, dense_cons, if_pos rfl] at this
    exact absurd this.symm (h2.2 (i, n) (by simp))
  | (i, n) :: t, [], h1, _, h => by
    have := congrFun h i
    rw [dense_nil, dense_cons, if_pos rfl] at this
    exact absurd this (h1.2 (i, n) (by simp))
  | (i1, n1) :: t1, (i2, n2) :: t2, h1, h2, h => by
    have hn1 : n1 ≠ 0 := h1.2 (i1, n1) (by simp)
    have hn2 : n2 ≠ 0 := h2.2 (i2, n2) (by simp)
    have hi : i1 = i2 := by
      rcases lt_trichotomy i1 i2 with h3 | h3 | h3
      · have := congrFun h i1
        rw [h2.dense_lt h3, dense_cons, if_pos rfl] at this; omega
      · exact h3
      · have := congrFun h i2
        rw [h1.dense_lt h3, dense_cons, if_pos rfl] at this; omega
    subst hi
    have hn : n1 = n2 := by
      have := congrFun h i1
      rwa [dense_cons, dense_cons, if_pos rfl, if_pos rfl] at this
    subst hn
    congr 1
    refine dense_inj t1 t2 h1.tail h2.tail (funext fun j => ?_)
    by_cases hj : i1 = j
    · subst hj; rw [h1.dense_le (le_refl _), h2.dense_le (le_refl _)]
    · have := congrFun h j
      rwa [dense_cons, dense_cons, if_neg hj, if_neg hj] at this

theorem Less.trans {a b c : SIdx} (h1 : Less a b) (h2 : Less b c) : Less a c := by
  unfold Less at *
  rcases h1 with h1 | ⟨h1, h1'⟩
  · rcases h2 with h2 | ⟨h2, _⟩ <;> exact .inl (by omega)
  · rcases h2 with h2 | ⟨h2, h2'⟩
    · exact .inl (by omega)
    · refine .inr ⟨by omega, ?_⟩
      rcases h1' with h1' | ⟨h1', h1''⟩
      · rcases h2' with h2' | ⟨h2', _⟩ <;> exact .inl (by omega)
      · rcases h2' with h2' | ⟨h2', h2''⟩
        · exact .inl (by omega)
        · exact .inr ⟨by omega, h1''.trans h2''⟩

theorem Less.irrefl (a : SIdx) : ¬ Less a a := by
  rintro (h | ⟨_, h | ⟨_, h⟩⟩)
  · exact lt_irrefl _ h
  · exact lt_irrefl _ h
  · exact RevLex.irrefl _ h

theorem Less.asymm {a b : SIdx} (h : Less a b) : ¬ Less b a := fun h2 => Less.irrefl a (h.trans h2)

theorem Less.tri {a b : SIdx} (ha : Sane a.2) (hb : Sane b.2) (h : a ≠ b) : Less a b ∨ Less b a := by
  rcases lt_trichotomy (degree a.2) (degree b.2) with h1 | h1 | h1
  · exact .inl (.inl h1)
  · rcases lt_trichotomy a.1 b.1 with h2 | h2 | h2
    · exact .inl (.inr ⟨h1, .inl h2⟩)
    · have : dense a.2 ≠ dense b.2 := fun h3 => h (Prod.ext h2 (dense_inj _ _ ha hb h3))
      rcases RevLex.tri this with h3 | h3
      · exact .inl (.inr ⟨h1, .inr ⟨h2, h3⟩⟩)
      · exact .inr (.inr ⟨h1.symm, .inr ⟨h2.symm, h3⟩⟩)
    · exact .inr (.inr ⟨h1.symm, .inl h2⟩)
  · exact .inr (.inl h1)

end Heyoka.Dtens
