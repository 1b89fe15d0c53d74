import Verif.Compact.Model

/-!
# Segments
-/

set_option linter.unusedSectionVars false

namespace Heyoka.Sym

variable {K : Type}

/-- The segments are not empty, and every element depends only on elements before its segment; `start` is the
index of the first element. -/
def SegsOk {α : Type} (idxs : α → Res (List Nat)) (start : Nat) : List (List α) → Prop
  | [] => True
  | seg :: segs => seg ≠ [] ∧ (∀ e ∈ seg, ∃ is, idxs e = .ok is ∧ ∀ j ∈ is, j < start) ∧
    SegsOk idxs (start + seg.length) segs

theorem segmentLoop_ok {α : Type} {idxs : α → Res (List Nat)} (es : List α) : ∀ (limit i : Nat) (cur : List α), limit + cur.length = i →
    (∀ e ∈ cur, ∃ is, idxs e = .ok is ∧ ∀ j ∈ is, j < limit) → (cur ≠ [] ∨ es ≠ []) →
    (∀ (k : Nat) (e : α), es[k]? = some e → ∃ is, idxs e = .ok is ∧ ∀ j ∈ is, j < i + k) →
    ∃ segs, segmentLoop idxs limit i cur es = .ok segs ∧ segs.flatten = cur ++ es ∧ SegsOk idxs limit segs := by
  induction es with
  | nil =>
    intro limit i cur _ hcur hne _
    refine ⟨[cur], rfl, by simp, ?_, hcur, trivial⟩
    rcases hne with h | h
    · exact h
    · exact absurd rfl h
  | cons e es ih =>
    intro limit i cur hi hcur _ hes
    obtain ⟨is, h1, h2⟩ := hes 0 e rfl
    rw [segmentLoop, h1, Res.bind_ok]
    have hrest : ∀ (k : Nat) (e' : α), es[k]? = some e' → ∃ is, idxs e' = .ok is ∧ ∀ j ∈ is, j < i + 1 + k := by
      intro k e' hk
      obtain ⟨is', h3, h4⟩ := hes (k + 1) e' (by simpa using hk)
      exact ⟨is', h3, fun j hj => by have := h4 j hj; omega⟩
    by_cases hany : is.any (limit ≤ ·) = true
    · rw [if_pos hany]
      obtain ⟨segs, h3, h4, h5⟩ := ih i (i + 1) [e] (by simp) (fun x hx => by
        rw [List.mem_singleton] at hx
        subst hx
        exact ⟨is, h1, fun j hj => by simpa using h2 j hj⟩) (.inl (by simp)) hrest
      refine ⟨cur :: segs, by rw [h3]; rfl, by simp [h4], ?_, hcur, by rw [hi]; exact h5⟩
      rintro rfl
      obtain ⟨j, hj, hl⟩ := List.any_eq_true.1 hany
      have := h2 j hj
      simp at hi hl
      omega
    · rw [if_neg hany]
      obtain ⟨segs, h3, h4, h5⟩ := ih limit (i + 1) (cur ++ [e]) (by simp; omega) (fun x hx => by
        rcases List.mem_append.1 hx with hx | hx
        · exact hcur x hx
        · rw [List.mem_singleton] at hx
          subst hx
          refine ⟨is, h1, fun j hj => ?_⟩
          by_contra hc
          exact hany (List.any_eq_true.2 ⟨j, hj, by simpa using hc⟩)) (.inl (by simp)) hrest
      exact ⟨segs, h3, by rw [h4]; simp, h5⟩

theorem segmentDc_ok {nvars : Nat} {mid : List (Expr K)}
    (h : ∀ (k : Nat) (e : Expr K), mid[k]? = some e → ∃ is, udefIdxs e = .ok is ∧ ∀ j ∈ is, j < nvars + k) :
    ∃ segs, segmentDc nvars mid = .ok segs ∧ segs.flatten = mid ∧ SegsOk udefIdxs nvars segs := by
  cases mid with
  | nil => exact ⟨[], rfl, rfl, trivial⟩
  | cons e es => exact segmentLoop_ok (e :: es) nvars nvars [] (by simp) (by simp) (.inr (by simp)) h

end Heyoka.Sym
