import Verif.Search.UpperBound
import Mathlib.Data.List.Forall2

/-! # Binary search: lemmas -/

namespace Heyoka.Search

variable {α : Type*}

/-- `r` is the partition point of `xs` for `p`: the elements satisfying `p` are exactly the
first `r`. -/
def IsPart (xs : List α) (p : α → Bool) (r : Nat) : Prop :=
  r ≤ xs.length ∧ ∀ i (h : i < xs.length), p xs[i] = true ↔ i < r

theorem ubLoop_part {xs : List α} {p : α → Bool} {r : Nat} (hp : IsPart xs p r) :
    ∀ count first, first ≤ r → r ≤ first + count → first + count ≤ xs.length →
      ubLoop xs p first count = .ok r := by
  intro count
  induction count using Nat.strong_induction_on with
  | _ count ih =>
    intro first h1 h2 h3
    unfold ubLoop
    split
    · next h0 => subst h0; congr 1; omega
    · next h0 =>
      have hlt : first + count / 2 < xs.length := by omega
      simp only [List.getElem?_eq_getElem hlt]
      have := hp.2 _ hlt
      split
      · next hpx => rw [this] at hpx; exact ih _ (by omega) _ (by omega) (by omega) (by omega)
      · next hpx => rw [this] at hpx; exact ih _ (by omega) _ (by omega) (by omega) (by omega)

theorem upperBound_part {xs : List α} {p : α → Bool} {r : Nat} (hp : IsPart xs p r) :
    upperBound xs p = .ok r :=
  ubLoop_part hp _ _ (Nat.zero_le _) (by have := hp.1; omega) (by omega)

/-- Invariant of a lane of the vector loop. -/
def LaneInv (masked : Bool) (l : Lane α) (r : Nat) : Prop :=
  IsPart l.xs l.p r ∧ l.first ≤ r ∧ r ≤ l.first + l.count ∧ l.first + l.count ≤ l.xs.length ∧
    (masked = true ∨ r < l.xs.length)

theorem laneStep_inv {masked : Bool} {l : Lane α} {r : Nat} (h : LaneInv masked l r) :
    ∃ l', laneStep masked l = .ok l' ∧ LaneInv masked l' r := by
  obtain ⟨hp, h1, h2, h3, h4⟩ := h
  unfold laneStep
  simp only
  split
  · next he =>
    simp only [Bool.and_eq_true, beq_iff_eq] at he
    exact ⟨⟨l.xs, l.p, l.first, l.count / 2⟩, rfl, hp, h1, by dsimp only; omega, by dsimp only; omega, h4⟩
  · next he =>
    have hlt : l.first + l.count / 2 < l.xs.length := by
      rcases h4 with h4 | h4
      · simp only [h4, Bool.true_and, beq_iff_eq] at he; omega
      · by_cases hc : l.count = 0 <;> omega
    simp only [List.getElem?_eq_getElem hlt]
    have := hp.2 _ hlt
    split
    · next hpx =>
      rw [this] at hpx
      rw [if_neg (by omega)]
      exact ⟨⟨l.xs, l.p, _, _⟩, rfl, hp, by dsimp only; omega, by dsimp only; omega, by dsimp only; omega, h4⟩
    · next hpx =>
      rw [this] at hpx
      exact ⟨⟨l.xs, l.p, l.first, l.count / 2⟩, rfl, hp, h1, by dsimp only; omega, by dsimp only; omega, h4⟩

theorem stepAll_inv {masked : Bool} : ∀ {ls : List (Lane α)} {rs : List Nat},
    List.Forall₂ (LaneInv masked) ls rs →
      ∃ ls', stepAll masked ls = .ok ls' ∧ List.Forall₂ (LaneInv masked) ls' rs := by
  intro ls rs h
  induction h with
  | nil => exact ⟨[], rfl, .nil⟩
  | cons hl _ ih =>
    obtain ⟨l', e1, i1⟩ := laneStep_inv hl
    obtain ⟨ls', e2, i2⟩ := ih
    exact ⟨l' :: ls', by simp [stepAll, e1, e2], .cons i1 i2⟩

theorem vecLoop_part {masked : Bool} : ∀ (n : Nat) {ls : List (Lane α)} {rs : List Nat},
    counts ls ≤ n → List.Forall₂ (LaneInv masked) ls rs → vecLoop masked ls = .ok rs := by
  intro n
  induction n using Nat.strong_induction_on with
  | _ n ih =>
    intro ls rs hn h
    unfold vecLoop
    split
    · next hex =>
      obtain ⟨ls', e, i⟩ := stepAll_inv h
      have hlt := (stepAll_counts e).2 hex
      split
      · next l2 e2 =>
        rw [e] at e2; cases e2
        exact ih _ (by omega) le_rfl i
      · next e2 => rw [e] at e2; cases e2
      · next e2 => rw [e] at e2; cases e2
    · next hex =>
      push Not at hex
      congr 1
      clear hn ih
      induction h with
      | nil => rfl
      | cons hl _ ih2 =>
        obtain ⟨_, h1, h2, _⟩ := hl
        have := hex _ List.mem_cons_self
        rw [List.map_cons, ih2 (fun l hl => hex l (List.mem_cons_of_mem _ hl))]
        congr 1; omega

/-- Vector search over one array. -/
theorem vecUpperBound_part {xs : List α} {ps : List (α → Bool)} {rs : List Nat}
    (h : List.Forall₂ (IsPart xs) ps rs) : vecUpperBound xs ps = .ok rs := by
  refine vecLoop_part _ le_rfl ?_
  rw [List.forall₂_map_left_iff]
  refine h.imp ?_
  intro p r hp
  exact ⟨hp, Nat.zero_le _, by have := hp.1; dsimp only; omega, by dsimp only; omega, .inl rfl⟩

/-- The number of elements satisfying `p` is the partition point of a list in which no element
satisfying `p` follows an element not satisfying it. -/
theorem isPart_countP {p : α → Bool} : ∀ {xs : List α},
    xs.Pairwise (fun a b => p b = true → p a = true) → IsPart xs p (xs.countP p) := by
  intro xs
  induction xs with
  | nil => intro _; exact ⟨by simp, fun i h => by simp at h⟩
  | cons x xs ih =>
    intro h
    rw [List.pairwise_cons] at h
    obtain ⟨hx, hs⟩ := h
    obtain ⟨a, b⟩ := ih hs
    refine ⟨List.countP_le_length, ?_⟩
    intro i hi
    cases hpx : p x with
    | true =>
      cases i with
      | zero => simp [hpx]
      | succ i =>
        simp only [List.length_cons, Nat.add_lt_add_iff_right] at hi
        simp [hpx, b i hi]
    | false =>
      have hc : xs.countP p = 0 := by
        rw [List.countP_eq_zero]
        intro y hy hpy
        have := hx y hy hpy
        simp [hpx] at this
      cases i with
      | zero => simp [hpx, hc]
      | succ i =>
        simp only [List.length_cons, Nat.add_lt_add_iff_right] at hi
        simp [hpx, b i hi, hc]

end Heyoka.Search
