import Verif.EopSw.Lemmas
import Verif.Util.Res

/-!
# The names of the `u` variables
-/

namespace Heyoka.Sym

open Heyoka.EopSw (decimal decimal_inj decimal_ne_nil)

/-- `fmt::format("u_{}", i)`. -/
def uname (i : Nat) : String := String.ofList ('u' :: '_' :: decimal i)

/-- The value of a decimal digit. -/
def digitVal (c : Char) : Nat := c.toNat - '0'.toNat

/-- The integer denoted by a sequence of digits. -/
def digitsVal (ds : List Char) : Nat := ds.foldl (fun n c => 10 * n + digitVal c) 0

/-- `std::from_chars()` into a 32-bit unsigned integer: the longest sequence of digits at the
beginning; an error if there are no digits or if the value is not representable. -/
def fromChars32 (cs : List Char) : Res Nat :=
  let ds := cs.takeWhile Char.isDigit
  if ds = [] then .throw
  else if digitsVal ds < 2 ^ 32 then .ok (digitsVal ds) else .throw

/-- `uname_to_index()` (`src/detail/string_conv.cpp` 41-62). -/
def unameToIndex (s : String) : Res Nat :=
  match s.toList with
  | 'u' :: '_' :: ds => fromChars32 ds
  | _ => .throw

theorem uname_inj {i j : Nat} (h : uname i = uname j) : i = j := by
  have := congrArg String.toList h
  simp only [uname, String.toList_ofList, List.cons.injEq, true_and] at this
  exact decimal_inj this

theorem uname_eq_iff {i j : Nat} : uname i = uname j ↔ i = j := ⟨uname_inj, congrArg _⟩

theorem digitChar_isDigit : ∀ {d : Nat}, d < 10 → (Nat.digitChar d).isDigit = true := by
  decide

theorem digitChar_val : ∀ {d : Nat}, d < 10 → digitVal (Nat.digitChar d) = d := by
  decide

theorem decimal_isDigit (n : Nat) : ∀ c ∈ decimal n, c.isDigit = true := by
  induction n using Nat.strong_induction_on with
  | _ n ih =>
    unfold decimal
    split
    · rename_i h
      intro c hc
      rw [List.mem_singleton.1 hc]
      exact digitChar_isDigit h
    · intro c hc
      rcases List.mem_append.1 hc with hc | hc
      · exact ih _ (by omega) c hc
      · rw [List.mem_singleton.1 hc]
        exact digitChar_isDigit (Nat.mod_lt n (by omega))

theorem digitsVal_decimal (n : Nat) : digitsVal (decimal n) = n := by
  induction n using Nat.strong_induction_on with
  | _ n ih =>
    unfold decimal
    split
    · rename_i h
      simp [digitsVal, digitChar_val h]
    · have h1 := ih (n / 10) (by omega)
      unfold digitsVal at h1 ⊢
      rw [List.foldl_append, h1]
      simp only [List.foldl_cons, List.foldl_nil, digitChar_val (Nat.mod_lt n (by omega : 10 > 0))]
      omega

theorem takeWhile_all {α : Type} {p : α → Bool} {l : List α} (h : ∀ x ∈ l, p x = true) :
    l.takeWhile p = l := by
  induction l with
  | nil => rfl
  | cons a l ih =>
    rw [List.takeWhile_cons, if_pos (h a List.mem_cons_self),
      ih fun x hx => h x (List.mem_cons_of_mem _ hx)]

/-- The index of a `u` variable is recovered from its name if it fits in 32 bits, otherwise an
exception is thrown. -/
theorem unameToIndex_uname (i : Nat) :
    unameToIndex (uname i) = if i < 2 ^ 32 then .ok i else .throw := by
  have h : (decimal i).takeWhile Char.isDigit = decimal i :=
    takeWhile_all (decimal_isDigit i)
  have h' : (uname i).toList = 'u' :: '_' :: decimal i := by
    simp only [uname, String.toList_ofList]
  simp only [unameToIndex, h', fromChars32, h, digitsVal_decimal, decimal_ne_nil, if_false]

end Heyoka.Sym
