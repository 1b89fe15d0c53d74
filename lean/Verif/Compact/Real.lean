import Verif.Compact.Kernel
import Verif.Compact.Fresh
import Verif.Props.Rewrite
import Verif.Props.Order

/-!
# Compact mode over the reals
-/

set_option linter.unusedSectionVars false

namespace Heyoka.Sym

open EopSw (decimal decimal_inj)

/-- The code generated for the evaluation of a function: powers (`src/math/pow.cpp` 292-365), products
(`src/math/prod.cpp` 284-309: a negation is the opposite of the product of the other factors), otherwise the
function itself. The pairwise products and sums are computed exactly here. -/
noncomputable def realCode : Fn ℝ → List ℝ → Option ℝ
  | .pow a, [b, e] => powEval a b e
  | .prod true, _ :: y :: l => some (-(y :: l).prod)
  | f, xs => realApp f xs

noncomputable instance : CodeInterp ℝ := ⟨realCode⟩

/-- The functions of the library: their names contain no user-supplied part, apart from the slopes of the rectifiers,
which are in `S`. -/
def Fn.lib {K : Type} (S : K → Prop) (f : Fn K) : Prop :=
  f.builtin ∨ f = .const "pi" ∨ ∃ s, S s ∧ (f = .relu s ∨ f = .relup s)

/-- The printing of the slopes in `S` is one-to-one, and contains none of the separators. -/
structure HexOk {K : Type} [FmtName K] (S : K → Prop) : Prop where
  inj : ∀ s t, S s → S t → (FmtName.hex s : String) = FmtName.hex t → s = t
  chars : ∀ s, S s → ∀ c ∈ (FmtName.hex s : String).toList, c ≠ '(' ∧ c ≠ ')' ∧ c ≠ '#' ∧ c ≠ '.'

section
variable [FmtName ℝ] {S : ℝ → Prop}

/-- The part of the name of a rectifier after the base. -/
noncomputable def slopeChars (s : ℝ) : List Char := if s = 0 then [] else '_' :: (FmtName.hex s).toList

theorem relu_chars (s : ℝ) : (Fn.relu s).name.toList = ['r', 'e', 'l', 'u'] ++ slopeChars s := by
  simp only [Fn.name, reluName, slopeChars]
  split_ifs <;> simp [String.toList_append]

theorem relup_chars (s : ℝ) : (Fn.relup s).name.toList = ['r', 'e', 'l', 'u', 'p'] ++ slopeChars s := by
  simp only [Fn.name, reluName, slopeChars]
  split_ifs <;> simp [String.toList_append]

theorem slope_inj (hS : HexOk S) {s t : ℝ} (hs : S s) (ht : S t) (h : slopeChars s = slopeChars t) : s = t := by
  unfold slopeChars at h
  split_ifs at h with h1 h2
  · rw [h1, h2]
  · simp only [List.cons.injEq, true_and] at h
    exact hS.inj s t hs ht (String.toList_inj.1 h)

theorem slope_ne_p {s : ℝ} {l : List Char} : slopeChars s ≠ 'p' :: l := by
  unfold slopeChars
  split_ifs <;> simp

theorem relu_inj (hS : HexOk S) {f g : Fn ℝ} (hf : ∃ s, S s ∧ (f = .relu s ∨ f = .relup s))
    (hg : ∃ s, S s ∧ (g = .relu s ∨ g = .relup s)) (h : f.name = g.name) : f = g := by
  have h := congrArg String.toList h
  obtain ⟨s, hs, rfl | rfl⟩ := hf <;> obtain ⟨t, ht, rfl | rfl⟩ := hg
  · rw [relu_chars, relu_chars] at h
    rw [slope_inj hS hs ht (List.append_cancel_left h)]
  · rw [relu_chars, relup_chars] at h
    simp only [List.cons_append, List.nil_append, List.cons.injEq, true_and] at h
    exact absurd h slope_ne_p
  · rw [relu_chars, relup_chars] at h
    simp only [List.cons_append, List.nil_append, List.cons.injEq, true_and] at h
    exact absurd h.symm slope_ne_p
  · rw [relup_chars, relup_chars] at h
    rw [slope_inj hS hs ht (List.append_cancel_left h)]

theorem relu_start {f : Fn ℝ} (hf : ∃ s, S s ∧ (f = .relu s ∨ f = .relup s)) :
    f.name.toList.take 4 = ['r', 'e', 'l', 'u'] := by
  obtain ⟨s, -, rfl | rfl⟩ := hf
  · rw [relu_chars]; rfl
  · rw [relup_chars]; rfl

theorem builtin_start {f : Fn ℝ} (hf : f.builtin ∨ f = .const "pi") :
    f.name.toList.take 4 ≠ ['r', 'e', 'l', 'u'] := by
  rcases hf with hf | rfl
  · cases f <;> simp only [Fn.builtin] at hf
    case sin c => cases c <;> (simp only [Fn.name]; decide +kernel)
    case cos c => cases c <;> (simp only [Fn.name]; decide +kernel)
    case rel op => cases op <;> (simp only [Fn.name, RelOp.name]; decide +kernel)
    all_goals (simp only [Fn.name]; decide +kernel)
  · simp only [Fn.name]; decide +kernel

theorem lib_cases {f : Fn ℝ} (hf : f.lib S) :
    (f.builtin ∨ f = .const "pi") ∨ ∃ s, S s ∧ (f = .relu s ∨ f = .relup s) := by
  rcases hf with h | h | h
  · exact .inl (.inl h)
  · exact .inl (.inr h)
  · exact .inr h

theorem lib_name_sound (hS : HexOk S) : NameSound (Fn.lib S) := by
  have hpi : (builtinTable (K := ℝ)).lookup "pi" = none := by
    simp [builtinTable, List.lookup]
  intro f g hf hg h
  rcases lib_cases hf with hf | hf <;> rcases lib_cases hg with hg | hg
  · rcases hf with hf | rfl <;> rcases hg with hg | rfl
    · exact builtin_name_sound f g hf hg h
    · have := builtin_table f hf
      rw [h] at this
      rw [show (Fn.const "pi" : Fn ℝ).name = "pi" from rfl, hpi] at this
      cases this
    · have := builtin_table g hg
      rw [← h] at this
      rw [show (Fn.const "pi" : Fn ℝ).name = "pi" from rfl, hpi] at this
      cases this
    · exact ⟨rfl, Iff.rfl⟩
  · exact absurd (by rw [h]; exact relu_start hg) (builtin_start hf)
  · exact absurd (by rw [← h]; exact relu_start hf) (builtin_start hg)
  · rw [relu_inj hS hf hg h]
    exact ⟨rfl, Iff.rfl⟩

theorem lib_code_sound : CodeSound (Fn.lib S) := by
  intro f args xs _ hc hm
  show realCode f xs = realApp f xs
  cases f with
  | pow a =>
    match xs, hm with
    | [], _ => rfl
    | [_], _ => rfl
    | [x, y], hm =>
      match args, hm with
      | [], hm => simp [NumsMatch] at hm
      | [_], hm => simp [NumsMatch] at hm
      | _ :: _ :: _ :: _, hm => simp [NumsMatch] at hm
      | [b, e], hm =>
        have ha : powAlgo e = a := by
          have : Fn.pow (powAlgo e) = Fn.pow a := hc
          injection this
        subst ha
        show powEval (powAlgo e) x y = realApp (.pow .general) [x, y]
        cases e with
        | num n => exact pow_eval_correct n x y (hm.2 1 n y rfl rfl)
        | _ => rw [powAlgo_notNum (by simp)]; rfl
    | _ :: _ :: _ :: _, _ => rfl
  | prod b =>
    have hb : prodIsNegation args = b := by
      have : Fn.prod (prodIsNegation args) = Fn.prod b := hc
      injection this
    cases b with
    | false => rfl
    | true =>
      match xs with
      | [] => rfl
      | [_] => rfl
      | x :: y :: l =>
        unfold prodIsNegation at hb
        split at hb
        · rename_i n _ _
          have h1 : n.val.toK? = some (-1) := FVal.isNegOne_iff.1 hb
          have h2 : n.toK? = some x := hm.2 0 n x rfl rfl
          have h3 : n.val.toK? = some x := h2
          rw [h1] at h3
          injection h3 with h3
          subst h3
          show some (-(y :: l).prod) = some ((-1 :: y :: l).prod)
          simp
        · cases hb
  | _ => rfl

theorem suffix_inj {a b : PowAlgo} (h : a.suffix = b.suffix) : a = b := by
  cases a <;> cases b <;> simp only [PowAlgo.suffix, List.cons_append, List.nil_append, List.cons.injEq, reduceCtorEq,
    and_false, false_and, Char.reduceEq, true_and, List.nil_eq] at h ⊢
  all_goals first | exact congrArg _ (decimal_inj h) | cases h

theorem decimal_chars (n : Nat) : ∀ c ∈ decimal n, c ≠ '(' ∧ c ≠ ')' ∧ c ≠ '#' ∧ c ≠ '.' := by
  intro c hc
  have := decimal_isDigit n c hc
  refine ⟨?_, ?_, ?_, ?_⟩ <;> rintro rfl <;> exact absurd this (by decide)

theorem suffix_chars (a : PowAlgo) : ∀ c ∈ a.suffix, c ≠ '(' ∧ c ≠ ')' ∧ c ≠ '#' ∧ c ≠ '.' := by
  intro c hc
  cases a with
  | general => cases hc
  | _ n =>
    rcases List.mem_append.1 hc with h | h
    · clear hc
      revert c
      decide
    · exact decimal_chars n c h

/-- The characters allowed in names. -/
def goodChars (l : List Char) : Bool := l.all fun c => c ≠ '(' && c ≠ ')' && c ≠ '#' && c ≠ '.'

theorem goodChars_iff {l : List Char} : goodChars l = true ↔ ∀ c ∈ l, c ≠ '(' ∧ c ≠ ')' ∧ c ≠ '#' ∧ c ≠ '.' := by
  simp [goodChars, and_assoc]

theorem slope_chars (hS : HexOk S) {s : ℝ} (hs : S s) :
    ∀ c ∈ slopeChars s, c ≠ '(' ∧ c ≠ ')' ∧ c ≠ '#' ∧ c ≠ '.' := by
  intro c hc
  unfold slopeChars at hc
  split_ifs at hc
  · cases hc
  · rcases List.mem_cons.1 hc with rfl | hc
    · decide
    · exact hS.chars s hs c hc

theorem lib_nameChars (hS : HexOk S) {f : Fn ℝ} (hf : f.lib S) : goodChars f.name.toList = true := by
  rcases hf with hf | rfl | ⟨s, hs, rfl | rfl⟩
  · cases f <;> simp only [Fn.builtin] at hf
    case sin c => cases c <;> (simp only [Fn.name]; decide +kernel)
    case cos c => cases c <;> (simp only [Fn.name]; decide +kernel)
    case rel op => cases op <;> (simp only [Fn.name, RelOp.name]; decide +kernel)
    all_goals (simp only [Fn.name]; decide +kernel)
  · simp only [Fn.name]; decide +kernel
  · rw [relu_chars, goodChars_iff]
    intro c hc
    rcases List.mem_append.1 hc with h | h
    · clear hc; clear * - h; revert c; decide
    · exact slope_chars hS hs c h
  · rw [relup_chars, goodChars_iff]
    intro c hc
    rcases List.mem_append.1 hc with h | h
    · clear hc; clear * - h; revert c; decide
    · exact slope_chars hS hs c h

/-- Neither a power nor a product. -/
def Fn.plain {K : Type} : Fn K → Bool
  | .pow _ => false
  | .prod _ => false
  | _ => true

theorem llvmName_plain {f : Fn ℝ} (h : f.plain = true) : f.llvmName = f.name.toList := by
  cases f <;> first | rfl | simp [Fn.plain] at h

theorem lib_plain_start {f : Fn ℝ} (hf : f.lib S) (h : f.plain = true) :
    f.name.toList.take 2 ≠ ['p', 'o'] ∧ f.name.toList.take 2 ≠ ['p', 'r'] := by
  rcases hf with hf | rfl | ⟨s, hs, rfl | rfl⟩
  · cases f <;> simp only [Fn.builtin, Fn.plain, Bool.false_eq_true] at hf h
    case sin c => cases c <;> (simp only [Fn.name]; decide +kernel)
    case cos c => cases c <;> (simp only [Fn.name]; decide +kernel)
    case rel op => cases op <;> (simp only [Fn.name, RelOp.name]; decide +kernel)
    all_goals (simp only [Fn.name]; decide +kernel)
  · simp only [Fn.name]; decide +kernel
  · rw [relu_chars]; simp
  · rw [relup_chars]; simp

theorem pow_start (a : PowAlgo) : (Fn.pow a : Fn ℝ).llvmName.take 2 = ['p', 'o'] := rfl

theorem prod_start (b : Bool) : (Fn.prod b : Fn ℝ).llvmName.take 2 = ['p', 'r'] := by cases b <;> rfl

theorem lib_llvm_inj {f g : Fn ℝ} (hf : f.lib S) (hg : g.lib S) (h : f.llvmName = g.llvmName) :
    f = g ∨ (f.plain = true ∧ g.plain = true ∧ f.name = g.name) := by
  by_cases pf : f.plain = true
  · by_cases pg : g.plain = true
    · rw [llvmName_plain pf, llvmName_plain pg] at h
      exact .inr ⟨pf, pg, String.toList_inj.1 h⟩
    · exfalso
      have hs := lib_plain_start hf pf
      rw [← llvmName_plain pf, h] at hs
      cases g <;> simp only [Fn.plain, not_true_eq_false] at pg
      · exact hs.2 (prod_start _)
      · exact hs.1 (pow_start _)
  · by_cases pg : g.plain = true
    · exfalso
      have hs := lib_plain_start hg pg
      rw [← llvmName_plain pg, ← h] at hs
      cases f <;> simp only [Fn.plain, not_true_eq_false] at pf
      · exact hs.2 (prod_start _)
      · exact hs.1 (pow_start _)
    · left
      cases f <;> simp only [Fn.plain, not_true_eq_false] at pf <;>
        cases g <;> simp only [Fn.plain, not_true_eq_false] at pg
      · rename_i a b
        cases a <;> cases b <;> first | rfl | (exfalso; simp [Fn.llvmName] at h)
      · have := congrArg (List.take 2) h
        rw [prod_start, pow_start] at this
        simp at this
      · have := congrArg (List.take 2) h
        rw [prod_start, pow_start] at this
        simp at this
      · rename_i a b
        have h2 : ['p', 'o', 'w'] ++ a.suffix = ['p', 'o', 'w'] ++ b.suffix := h
        rw [suffix_inj (List.append_cancel_left h2)]

theorem lib_llvm_sound (hS : HexOk S) : LlvmSound (Fn.lib S) := by
  refine ⟨fun f g hf hg h => ?_, fun f hf => ⟨?_, ?_⟩⟩
  · rcases lib_llvm_inj hf hg h with rfl | ⟨pf, pg, hn⟩
    · exact ⟨rfl, Iff.rfl⟩
    · have hs := lib_name_sound hS f g hf hg hn
      have hc : ∀ f : Fn ℝ, f.plain = true → (CodeInterp.code f : List ℝ → Option ℝ) = Interp.app f := by
        intro f hf
        funext xs
        cases f <;> first | rfl | simp [Fn.plain] at hf
      exact ⟨by rw [hc f pf, hc g pg]; exact hs.1, hs.2⟩
  · cases hp : f.plain with
    | true =>
      rw [llvmName_plain hp]
      exact goodChars_iff.1 (lib_nameChars hS hf)
    | false =>
      cases f <;> simp only [Fn.plain, Bool.true_eq_false] at hp
      · rename_i b
        cases b <;> exact goodChars_iff.1 (by simp [Fn.llvmName, goodChars])
      · intro c hc
        have hc : c ∈ ['p', 'o', 'w'] ++ PowAlgo.suffix _ := hc
        rcases List.mem_append.1 hc with h | h
        · clear hc; clear * - h; revert c; decide
        · exact suffix_chars _ c h
  · intro c hc
    have := goodChars_iff.1 (lib_nameChars hS hf) c hc
    exact ⟨this.1, this.2.1, this.2.2.1⟩

theorem lib_rewClosed (S : ℝ → Prop) : RewClosed (Fn.lib S) :=
  ⟨.inl trivial, fun _ => .inl trivial, fun _ => .inl trivial, .inl trivial, .inl trivial, .inl trivial,
    .inl trivial, .inl trivial, .inl trivial, .inl trivial⟩

end

end Heyoka.Sym
