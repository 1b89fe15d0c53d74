import Verif.Decomp.Uname
/-!
# The names of the derivatives of a function
-/

namespace Heyoka.Sym

open Heyoka.EopSw (decimal decimal_inj decimal_ne_nil)

theorem digits_sep {ds ds' : List Char} (h : ∀ c ∈ ds, c.isDigit = true) (h' : ∀ c ∈ ds', c.isDigit = true) {c : Char}
    (hc : c.isDigit = false) {l l' : List Char} (e : ds ++ c :: l = ds' ++ c :: l') : ds = ds' ∧ l = l' := by
  induction ds generalizing ds' with
  | nil =>
    cases ds' with
    | nil => simpa using e
    | cons d ds' =>
      simp only [List.nil_append, List.cons_append, List.cons.injEq] at e
      have := h' d List.mem_cons_self
      rw [← e.1, hc] at this
      cases this
  | cons d ds ih =>
    cases ds' with
    | nil =>
      simp only [List.nil_append, List.cons_append, List.cons.injEq] at e
      have := h d List.mem_cons_self
      rw [e.1, hc] at this
      cases this
    | cons d' ds' =>
      simp only [List.cons_append, List.cons.injEq] at e
      obtain ⟨h1, h2⟩ := ih (fun c hc => h c (List.mem_cons_of_mem _ hc)) (fun c hc => h' c (List.mem_cons_of_mem _ hc)) e.2
      exact ⟨by rw [e.1, h1], h2⟩

/-- A decimal number is determined if it is followed by another character. -/
theorem decimal_sep {a b : Nat} {c : Char} (hc : c.isDigit = false) {l l' : List Char}
    (h : decimal a ++ c :: l = decimal b ++ c :: l') : a = b ∧ l = l' := by
  obtain ⟨h1, h2⟩ := digits_sep (decimal_isDigit a) (decimal_isDigit b) hc h
  exact ⟨decimal_inj h1, h2⟩

/-- The indices and orders within the name of a `dfun` (`src/math/dfun.cpp` 121-122). -/
def dfunChars (didx : List (Nat × Nat)) : List Char :=
  didx.flatMap fun p => decimal p.1 ++ ',' :: (decimal p.2 ++ [' '])

theorem decimal_head {n : Nat} : ∃ d l, decimal n = d :: l ∧ d.isDigit = true := by
  cases h : decimal n with
  | nil => exact absurd h (decimal_ne_nil n)
  | cons d l => exact ⟨d, l, rfl, decimal_isDigit n d (by rw [h]; exact List.mem_cons_self)⟩

theorem dfunChars_inj : ∀ {ix jx : List (Nat × Nat)} {l l' : List Char},
    dfunChars ix ++ '_' :: l = dfunChars jx ++ '_' :: l' → ix = jx ∧ l = l'
  | [], [], l, l', h => by simpa [dfunChars] using h
  | [], p :: jx, l, l', h => by
    obtain ⟨d, t, h1, h2⟩ := decimal_head (n := p.1)
    simp only [dfunChars, List.flatMap_nil, List.nil_append, List.flatMap_cons, h1, List.cons_append, List.append_assoc, List.cons.injEq] at h
    rw [← h.1] at h2
    exact absurd h2 (by decide)
  | p :: ix, [], l, l', h => by
    obtain ⟨d, t, h1, h2⟩ := decimal_head (n := p.1)
    simp only [dfunChars, List.flatMap_nil, List.nil_append, List.flatMap_cons, h1, List.cons_append, List.append_assoc, List.cons.injEq] at h
    rw [h.1] at h2
    exact absurd h2 (by decide)
  | (i, n) :: ix, (j, m) :: jx, l, l', h => by
    simp only [dfunChars, List.flatMap_cons, List.append_assoc, List.cons_append, List.nil_append] at h
    obtain ⟨h1, h⟩ := decimal_sep (by decide) h
    obtain ⟨h2, h⟩ := decimal_sep (by decide) h
    obtain ⟨h3, h⟩ := dfunChars_inj (ix := ix) (jx := jx) h
    exact ⟨by rw [h1, h2, h3], h⟩

/-- The name of a `dfun` (`make_dfun_name()`, `src/math/dfun.cpp` 67-147): the prefix, the indices and orders, the
identifier. -/
def dfunName (id : String) (didx : List (Nat × Nat)) : String :=
  String.ofList (['d', 'f', 'u', 'n', '_'] ++ (dfunChars didx ++ '_' :: id.toList))

/-- The name determines the identifier and the indices. -/
theorem dfunName_inj {id id' : String} {ix jx : List (Nat × Nat)} (h : dfunName id ix = dfunName id' jx) : id = id' ∧ ix = jx := by
  have := congrArg String.toList h
  simp only [dfunName, String.toList_ofList] at this
  obtain ⟨h1, h2⟩ := dfunChars_inj (List.append_cancel_left this)
  exact ⟨String.toList_inj.1 h2, h1⟩

theorem dfunName_start (id : String) (ix : List (Nat × Nat)) : (dfunName id ix).toList.take 4 = ['d', 'f', 'u', 'n'] := by
  rw [dfunName, String.toList_ofList]
  simp

end Heyoka.Sym
