import Verif.EopSw.Parse
import Mathlib.Data.List.Forall2
import Mathlib.Tactic.Linarith
import Mathlib.Tactic.FieldSimp
import Mathlib.Tactic.Ring

/-!
# Lemmas on the parsers
-/

namespace Heyoka.EopSw

variable {K : Type*}

theorem pieces_eq (c : Char) : ∀ s, pieces c s = s.splitOn c
  | [] => by simp [pieces, List.splitOn_nil]
  | x :: xs => by
    rw [pieces, pieces_eq c xs, List.splitOn_cons_eq_if_modifyHead]
    by_cases h : x = c
    · simp [h]
    · simp only [h, if_false, beq_iff_eq]
      cases hs : xs.splitOn c with
      | nil => exact absurd hs (List.splitOn_ne_nil c xs)
      | cons l ls => rfl

/-- Joined pieces are split again. -/
theorem viewSplit_join {c : Char} {ls : List (List Char)} (hc : ∀ l ∈ ls, c ∉ l) (hn : ls ≠ []) :
    viewSplit c ([c].intercalate ls) = if ls = [[]] then [] else ls := by
  unfold viewSplit
  rw [pieces_eq, List.splitOn_intercalate c hc hn]
  by_cases h : ls = [[]]
  · simp [h]
  · rw [if_neg h, if_neg]
    intro he
    have he : [c].intercalate ls = [] := by simpa using he
    have := List.splitOn_intercalate c hc hn
    rw [he, List.splitOn_nil] at this
    exact h this.symm

/-- Any text consists of pieces. -/
theorem exists_pieces (c : Char) (s : List Char) : ∃ ls, ls ≠ [] ∧ (∀ l ∈ ls, c ∉ l) ∧ s = [c].intercalate ls := by
  refine ⟨s.splitOn c, List.splitOn_ne_nil c s, ?_, (List.intercalate_splitOn c).symm⟩
  induction s with
  | nil => simp [List.splitOn_nil]
  | cons x xs ih =>
    rw [List.splitOn_cons_eq_if_modifyHead]
    by_cases h : x = c
    · simpa [h] using ih
    · simp only [beq_iff_eq, h, if_false]
      cases hs : xs.splitOn c with
      | nil => exact absurd hs (List.splitOn_ne_nil c xs)
      | cons l ls =>
        rw [hs] at ih
        simp only [List.modifyHead_cons, List.mem_cons, forall_eq_or_imp] at ih ⊢
        exact ⟨fun h' => h'.elim (fun e => h e.symm) ih.1, ih.2⟩

/-! ### Lines -/

theorem parseLines_ok {R : Type*} {row : List Char → Res (Option R)} : ∀ {ls : List (List Char)} {acc tbl : List R},
    parseLines row ls acc = .ok tbl ↔ ∃ done rest rows, ls = done ++ rest ∧ List.Forall₂ (fun l r => l ≠ [] ∧ row l = .ok (some r)) done rows ∧
      tbl = acc ++ rows ∧ (rest = [] ∨ ∃ l t, rest = l :: t ∧ (l = [] ∨ row l = .ok none)) := by
  intro ls
  induction ls with
  | nil =>
    intro acc tbl
    simp only [parseLines, Res.ok.injEq]
    constructor
    · rintro rfl
      exact ⟨[], [], [], rfl, .nil, by simp, .inl rfl⟩
    · rintro ⟨done, rest, rows, h1, h2, rfl, h4⟩
      obtain ⟨rfl, rfl⟩ := List.append_eq_nil_iff.1 h1.symm
      cases h2
      simp
  | cons l ls ih =>
    intro acc tbl
    rw [parseLines]
    constructor
    · intro h
      by_cases hl : l.isEmpty = true
      · rw [if_pos hl] at h
        obtain rfl := Res.ok.inj h
        exact ⟨[], l :: ls, [], rfl, .nil, by simp, .inr ⟨l, ls, rfl, .inl (by simpa using hl)⟩⟩
      rw [if_neg hl] at h
      cases hr : row l with
      | throw => rw [hr] at h; simp at h
      | ub => rw [hr] at h; simp at h
      | ok o =>
        rw [hr, Res.bind_ok] at h
        cases o with
        | none =>
          obtain rfl := Res.ok.inj h
          exact ⟨[], l :: ls, [], rfl, .nil, by simp, .inr ⟨l, ls, rfl, .inr hr⟩⟩
        | some r =>
          obtain ⟨done, rest, rows, h1, h2, h3, h4⟩ := ih.1 h
          exact ⟨l :: done, rest, r :: rows, by rw [h1]; rfl, .cons ⟨by simpa using hl, hr⟩ h2, by simp [h3], h4⟩
    · rintro ⟨done, rest, rows, h1, h2, rfl, h4⟩
      cases done with
      | nil =>
        cases h2
        rw [List.nil_append] at h1
        subst h1
        rcases h4 with h4 | ⟨l', t, h4, h5⟩
        · simp at h4
        · simp only [List.cons.injEq] at h4
          obtain ⟨rfl, rfl⟩ := h4
          by_cases hl : l = []
          · simp [hl]
          · rw [if_neg (by simpa using hl), h5.resolve_left hl]
            simp
      | cons l' done =>
        simp only [List.cons_append, List.cons.injEq] at h1
        obtain ⟨rfl, rfl⟩ := h1
        cases h2 with
        | cons h2 h3 =>
          rename_i r rows
          rw [if_neg (by simpa using h2.1), h2.2, Res.bind_ok]
          exact ih.2 ⟨done, rest, rows, rfl, h3, by simp, h4⟩

theorem parseLines_not_ub {R : Type*} {row : List Char → Res (Option R)} (h : ∀ l, row l ≠ .ub) :
    ∀ (ls : List (List Char)) (acc : List R), parseLines row ls acc ≠ .ub := by
  intro ls
  induction ls with
  | nil => intro acc; simp [parseLines]
  | cons l ls ih =>
    intro acc
    rw [parseLines]
    split
    · simp
    · cases hr : row l with
      | throw => simp
      | ub => exact absurd hr (h l)
      | ok o =>
        rw [Res.bind_ok]
        cases o with
        | none => simp
        | some r => exact ih _

/-! ### Fields -/

theorem fieldLoop_count {S : Type*} {last : Nat} {upd : Nat → List Char → S → Res S} : ∀ {fs : List (List Char)} {i : Nat} {s : S} {q : S × Nat},
    fieldLoop last upd fs i s = .ok q → i ≤ last + 1 → q.2 = min (i + fs.length) (last + 1) := by
  intro fs
  induction fs with
  | nil =>
    intro i s q h hi
    rw [fieldLoop] at h
    obtain rfl := Res.ok.inj h
    simp [hi]
  | cons f fs ih =>
    intro i s q h hi
    rw [fieldLoop] at h
    by_cases hl : i ≤ last
    · rw [if_pos hl] at h
      cases hu : upd i f s with
      | throw => rw [hu] at h; simp at h
      | ub => rw [hu] at h; simp at h
      | ok s' =>
        rw [hu, Res.bind_ok] at h
        rw [ih h (by omega), List.length_cons]
        congr 1
        omega
    · rw [if_neg hl] at h
      obtain rfl := Res.ok.inj h
      simp only [List.length_cons]
      omega

theorem fieldLoop_not_ub {S : Type*} {last : Nat} {upd : Nat → List Char → S → Res S} (h : ∀ i f s, upd i f s ≠ .ub) :
    ∀ (fs : List (List Char)) (i : Nat) (s : S), fieldLoop last upd fs i s ≠ .ub := by
  intro fs
  induction fs with
  | nil => intro i s; simp [fieldLoop]
  | cons f fs ih =>
    intro i s
    rw [fieldLoop]
    split
    · cases hu : upd i f s with
      | throw => simp
      | ub => exact absurd hu (h i f s)
      | ok s' => exact ih _ _
    · simp

theorem parseDouble_ok {num : List Char → Option (XF K)} {s : List Char} {x : XF K} : parseDouble num s = .ok x ↔ num s = some x := by
  unfold parseDouble
  cases num s <;> simp

theorem parseDouble_not_ub {num : List Char → Option (XF K)} {s : List Char} : parseDouble num s ≠ .ub := by
  unfold parseDouble
  cases num s <;> simp

theorem bind_ok_iff {α β : Type*} {x : Res α} {f : α → Res β} {b : β} : x.bind f = .ok b ↔ ∃ a, x = .ok a ∧ f a = .ok b := by
  cases x <;> simp

theorem bind_not_ub {α β : Type*} {x : Res α} {f : α → Res β} (h1 : x ≠ .ub) (h2 : ∀ a, x = .ok a → f a ≠ .ub) : x.bind f ≠ .ub := by
  cases x with
  | ok a => exact h2 a rfl
  | throw => simp
  | ub => exact absurd rfl h1

end Heyoka.EopSw
