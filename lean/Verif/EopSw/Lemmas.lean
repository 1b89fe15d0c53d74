import Verif.EopSw.Model
import Verif.Search.Lemmas
import Mathlib.Tactic.FieldSimp
import Mathlib.Tactic.Ring
import Mathlib.Tactic.IntervalCases

/-! # EOP/SW tables: lemmas -/

namespace Heyoka.EopSw

open Search

section Lookup
variable {K : Type*} [LinearOrder K]

theorem isPart_ule {dates : List K} (hs : dates.Pairwise (· ≤ ·)) (q : Option K) :
    IsPart dates (ule q) (dates.countP (ule q)) := by
  apply isPart_countP
  refine hs.imp ?_
  intro a b hab hb
  cases q with
  | none => rfl
  | some v =>
    simp only [ule, decide_eq_true_eq] at hb ⊢
    exact hab.trans hb

theorem locateDate_eq {dates : List K} (hs : dates.Pairwise (· ≤ ·)) (q : Option K) :
    locateDate dates q = .ok (adjust dates.length (dates.countP (ule q))) := by
  simp [locateDate, upperBound_part (isPart_ule hs q)]

theorem locateDateVec_eq {dates : List K} (hs : dates.Pairwise (· ≤ ·)) (qs : List (Option K)) :
    locateDateVec dates qs =
      .ok (qs.map fun q => adjust dates.length (dates.countP (ule q))) := by
  have : vecUpperBound dates (qs.map ule) = .ok (qs.map fun q => dates.countP (ule q)) := by
    apply vecUpperBound_part
    rw [List.forall₂_map_left_iff, List.forall₂_map_right_iff]
    exact List.forall₂_same.2 fun q _ => isPart_ule hs q
  simp [locateDateVec, this]

end Lookup

section Validate
variable {K : Type*} [LinearOrder K]

theorem checkRows_spec {nn : K → Bool} : ∀ {rs : List (Row K)}, checkRows nn rs = true →
    ∃ ds : List K, rs.map Row.mjd = ds.map some ∧ ds.Pairwise (· < ·) := by
  intro rs
  induction rs with
  | nil => intro _; exact ⟨[], rfl, .nil⟩
  | cons r rs ih =>
    intro h
    rw [checkRows] at h
    simp only [Bool.and_eq_true] at h
    obtain ⟨⟨⟨h1, h2⟩, _⟩, h4⟩ := h
    obtain ⟨ds, e, hp⟩ := ih h4
    obtain ⟨a, ha⟩ := Option.isSome_iff_exists.1 h1
    refine ⟨a :: ds, by simp [ha, e], ?_⟩
    cases rs with
    | nil =>
      simp only [List.map_nil, List.nil_eq, List.map_eq_nil_iff] at e
      subst e; simp
    | cons r' rs' =>
      cases ds with
      | nil => simp at e
      | cons b ds' =>
        simp only [List.map_cons, List.cons.injEq] at e
        rw [ha] at h2
        simp only [nextOk, List.head?_cons, Option.bind_some, e.1, ge_iff_le, Bool.not_eq_eq_eq_not, Bool.not_true, decide_eq_false_iff_not,
          not_le] at h2
        have hp' := hp
        rw [List.pairwise_cons] at hp'
        rw [List.pairwise_cons]
        refine ⟨?_, hp⟩
        intro c hc
        rcases List.mem_cons.1 hc with rfl | hc
        · exact h2
        · exact h2.trans (hp'.1 c hc)

end Validate

section Names

theorem digitChar_inj : ∀ {a b : Nat}, a < 10 → b < 10 → Nat.digitChar a = Nat.digitChar b → a = b := by
  intro a b ha hb h
  interval_cases a <;> interval_cases b <;> first | rfl | (exact absurd h (by decide))

theorem digitChar_ne_dot {a : Nat} (ha : a < 10) : Nat.digitChar a ≠ '.' := by
  interval_cases a <;> decide

theorem decimal_ne_dot : ∀ (n : Nat), '.' ∉ decimal n := by
  intro n
  induction n using Nat.strong_induction_on with
  | _ n ih =>
    unfold decimal
    split
    · next h => simp only [List.mem_singleton]; exact fun e => digitChar_ne_dot h e.symm
    · next h =>
      simp only [List.mem_append, List.mem_singleton, not_or]
      exact ⟨ih _ (by omega), fun e => digitChar_ne_dot (Nat.mod_lt n (by omega)) e.symm⟩

theorem decimal_ne_nil (n : Nat) : decimal n ≠ [] := by
  unfold decimal; split <;> simp

theorem decimal_inj : ∀ {a b : Nat}, decimal a = decimal b → a = b := by
  intro a
  induction a using Nat.strong_induction_on with
  | _ a ih =>
    intro b h
    rw [decimal] at h
    conv at h => rhs; rw [decimal]
    split at h
    · next ha =>
      split at h
      · next hb => exact digitChar_inj ha hb (by simpa using h)
      · next hb =>
        exfalso
        have := congrArg List.length h
        simp at this
        exact decimal_ne_nil _ this
    · next ha =>
      split at h
      · next hb =>
        exfalso
        have := congrArg List.length h
        simp at this
        exact decimal_ne_nil _ this
      · next hb =>
        have h' := List.append_inj' h rfl
        have e1 := ih (a / 10) (by omega) h'.1
        have e2 := digitChar_inj (Nat.mod_lt a (by omega)) (Nat.mod_lt b (by omega))
          (by simpa using h'.2)
        omega

/-- Splitting at a separator which does not occur before it. -/
theorem split_at_sep {c : Char} : ∀ {a b a' b' : List Char}, c ∉ a → c ∉ a' →
    a ++ c :: b = a' ++ c :: b' → a = a' ∧ b = b' := by
  intro a
  induction a with
  | nil =>
    intro b a' b' _ h2 h
    cases a' with
    | nil => simpa using h
    | cons x a' =>
      simp only [List.nil_append, List.cons_append, List.cons.injEq] at h
      exact absurd (h.1 ▸ List.mem_cons_self) h2
  | cons x a ih =>
    intro b a' b' h1 h2 h
    cases a' with
    | nil =>
      simp only [List.nil_append, List.cons_append, List.cons.injEq] at h
      exact absurd (h.1 ▸ List.mem_cons_self) h1
    | cons y a' =>
      simp only [List.cons_append, List.cons.injEq] at h
      obtain ⟨e1, e2⟩ := ih (fun hh => h1 (List.mem_cons_of_mem _ hh))
        (fun hh => h2 (List.mem_cons_of_mem _ hh)) h.2
      exact ⟨by rw [h.1, e1], e2⟩

theorem nameTail_inj {m m' : Meta} {ty ty' p p' : List Char} (hp : '.' ∉ p) (hp' : '.' ∉ p')
    (hts : '-' ∉ m.ts) (hts' : '-' ∉ m'.ts) (hid : '.' ∉ m.ident) (hid' : '.' ∉ m'.ident)
    (h : p ++ nameTail m ty = p' ++ nameTail m' ty') : p = p' ∧ m = m' ∧ ty = ty' := by
  simp only [nameTail, List.cons_append, List.append_assoc] at h
  obtain ⟨e0, h⟩ := split_at_sep hp hp' h
  obtain ⟨e1, h⟩ := split_at_sep (decimal_ne_dot _) (decimal_ne_dot _) h
  obtain ⟨e2, h⟩ := split_at_sep hts hts' h
  obtain ⟨e3, h⟩ := split_at_sep hid hid' h
  refine ⟨e0, ?_, h⟩
  cases m; cases m'
  simp only at e1 e2 e3
  rw [e2, e3, decimal_inj e1]

theorem checkTsId_spec {m : Meta} {a : Bool} {r : List (List Char)} (h : checkTsId m a r = true) :
    '-' ∉ m.ts ∧ '.' ∉ m.ident := by
  simp only [checkTsId, Bool.and_eq_true, Bool.not_eq_eq_eq_not, Bool.not_true, Bool.or_eq_false_iff,
    List.contains_eq_mem, decide_eq_false_iff_not] at h
  exact ⟨h.1.1.2.2, h.1.2.1⟩

end Names

end Heyoka.EopSw
