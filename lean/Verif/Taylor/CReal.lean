import Verif.Taylor.CComp
import Verif.Compact.Real

/-!
# The assumptions on the functions, over the reals
-/

set_option linter.unusedSectionVars false
set_option linter.unusedSimpArgs false
set_option linter.unusedVariables false

namespace Heyoka.Taylor

open Heyoka.Sym

theorem real_powSound : PowSound ℝ where
  code := fun algo m x y h => by
    show realCode (.pow (powAlgo (.num m))) [x, y] = realApp (.pow algo) [x, y]
    exact pow_eval_correct m x y h
  sq := fun algo x => by
    show realApp (.pow algo) [x, 2] = _
    have hd : PowDom x 2 := by
      rcases lt_trichotomy x 0 with h | h | h
      · exact .inr (.inr ⟨h, 2, by norm_num⟩)
      · exact .inr (.inl ⟨h, by norm_num⟩)
      · exact .inl h
    simp only [realApp, if_pos hd]
    rw [show (2 : ℝ) = ((2 : ℕ) : ℝ) by norm_num, Real.rpow_natCast, sq]
  half := fun _ _ _ => rfl

variable [FmtName ℝ] {S : ℝ → Prop} {L : Fn ℝ → Prop}

/-- The functions whose names contain a part chosen by the user: the names of the constants do not contain the separator,
the slopes of the rectifiers are in `S`. -/
structure UserNames (S : ℝ → Prop) (L : Fn ℝ → Prop) : Prop where
  const : ∀ c, L (.const c) → '.' ∉ c.toList
  relu : ∀ s, L (.relu s) → S s
  relup : ∀ s, L (.relup s) → S s

/-- The kind of a function, from the beginning of its name. -/
def tag (l : List Char) : Nat :=
  if l.take 2 = ['p', 'o'] then 0 else if l.take 2 = ['p', 'r'] then 1
  else if l.take 4 = ['c', 'o', 'n', 's'] then 2 else if l.take 4 = ['r', 'e', 'l', 'u'] then 3 else 4

/-- What the functions with a given kind are. -/
inductive CClass (S : ℝ → Prop) : Fn ℝ → CFun ℝ → Prop
  | sq (a) : CClass S (.pow a) .square
  | sqrt (a) : CClass S (.pow a) .sqrt
  | pow (a b) : CClass S (.pow a) (.pow b)
  | neg (b) : CClass S (.prod b) .neg
  | prod (b) : CClass S (.prod b) (.fn (.prod false))
  | const (c : String) (h : '.' ∉ c.toList) : CClass S (.const c) (.fn (.const c))
  | relu (f) (h : ∃ s, S s ∧ (f = .relu s ∨ f = .relup s)) : CClass S f (.fn f)
  | builtin (f) (h : f.builtin) (hp : f.plain = true) : CClass S f (.fn f)

theorem cclass_of (hU : UserNames S L) {f : Fn ℝ} {es : List (Expr ℝ)} (h : TShape L f es) : CClass S f (cfun f es) := by
  cases f
  case prod b =>
    obtain ⟨x, y, rfl⟩ := List.length_eq_two.1 h
    cases x with
    | num n =>
      simp only [cfun]
      split
      · exact .neg b
      · exact .prod b
    | _ => exact .prod b
  case pow a =>
    obtain ⟨x, m, rfl⟩ := h
    cases x with
    | var s =>
      simp only [cfun]
      split
      · exact .sqrt a
      · exact .sq a
      · exact .pow a _
    | _ => exact .pow a _
  case relu s => exact .relu _ ⟨s, hU.relu s h.2, .inl rfl⟩
  case relup s => exact .relu _ ⟨s, hU.relup s h.2, .inr rfl⟩
  case const c => exact .const c (hU.const c h)
  case dfun i d => exact h.elim
  case other n => exact h.elim
  case kepDE => exact h.elim
  all_goals exact .builtin _ trivial rfl

theorem const_chars (c : String) : (CFun.fn (.const c) : CFun ℝ).name =
    ['c', 'o', 'n', 's', 't', 'a', 'n', 't', '_'] ++ c.toList := rfl

theorem plain_cname {f : Fn ℝ} (h : ∀ c, f ≠ .const c) : (CFun.fn f).name = f.name.toList := by
  cases f <;> first | rfl | exact absurd rfl (h _)

theorem builtin_not_const {f : Fn ℝ} (h : f.builtin) (c : String) : f ≠ .const c := by
  rintro rfl
  exact h

theorem relu_not_const {f : Fn ℝ} (h : ∃ s, S s ∧ (f = .relu s ∨ f = .relup s)) (c : String) : f ≠ .const c := by
  rintro rfl
  obtain ⟨s, -, h | h⟩ := h <;> cases h

theorem builtin_tag {f : Fn ℝ} (h : f.builtin) (hp : f.plain = true) : tag f.name.toList = 4 := by
  cases f <;> simp only [Fn.builtin, Fn.plain, Bool.false_eq_true] at h hp
  case sin c => cases c <;> (simp only [Fn.name]; decide +kernel)
  case cos c => cases c <;> (simp only [Fn.name]; decide +kernel)
  case rel op => cases op <;> (simp only [Fn.name, RelOp.name]; decide +kernel)
  all_goals (simp only [Fn.name]; decide +kernel)

theorem builtin_eq {f g : Fn ℝ} (hf : f.builtin) (pf : f.plain = true) (hg : g.builtin) (pg : g.plain = true)
    (h : f.name = g.name) : f = g := by
  have hn : f.norm = g.norm := by
    have h1 := builtin_table f hf
    have h2 := builtin_table g hg
    rw [h, h2] at h1
    exact (Option.some.inj h1).symm
  have e : ∀ f : Fn ℝ, f.plain = true → f.norm = f := by
    intro f hf
    cases f <;> first | rfl | simp [Fn.plain] at hf
  rwa [e f pf, e g pg] at hn

theorem tag_of_take {l : List Char} (h : l.take 4 = ['r', 'e', 'l', 'u']) : tag l = 3 := by
  obtain ⟨r, rfl⟩ : ∃ r, l = ['r', 'e', 'l', 'u'] ++ r := ⟨l.drop 4, by rw [← h, List.take_append_drop]⟩
  simp [tag]

/-- The kind of a class. -/
def CFun.kind : CFun ℝ → Nat
  | .square | .sqrt | .pow _ => 0
  | .neg | .fn (.prod _) => 1
  | .fn (.const _) => 2
  | .fn (.relu _) | .fn (.relup _) => 3
  | _ => 4

theorem CClass.tag {f : Fn ℝ} {c : CFun ℝ} (h : CClass S f c) : tag c.name = c.kind := by
  cases h with
  | sq a => simp [CFun.name, Taylor.tag, CFun.kind]
  | sqrt a => simp [CFun.name, Taylor.tag, CFun.kind]
  | pow a b => simp [CFun.name, Taylor.tag, CFun.kind]
  | neg b => simp [CFun.name, Taylor.tag, CFun.kind]
  | prod b => simp only [CFun.name, Fn.name, CFun.kind]; decide +kernel
  | const c h => simp [CFun.name, Taylor.tag, CFun.kind]
  | relu f h =>
    rw [plain_cname (relu_not_const h), tag_of_take (relu_start h)]
    obtain ⟨s, -, rfl | rfl⟩ := h <;> rfl
  | builtin f h hp =>
    rw [plain_cname (builtin_not_const h), builtin_tag h hp]
    cases f <;> first | rfl | exact h.elim | simp [Fn.plain] at hp

theorem no_dot {l : List Char} (h : goodChars l = true) : '.' ∉ l := fun hd => (goodChars_iff.1 h _ hd).2.2.2 rfl

theorem CClass.dot (hS : HexOk S) {f : Fn ℝ} {c : CFun ℝ} (h : CClass S f c) : '.' ∉ c.name := by
  cases h with
  | sq a => simp [CFun.name]
  | sqrt a => simp [CFun.name]
  | pow a b =>
    intro hd
    have hd : '.' ∈ ['p', 'o', 'w'] ++ b.suffix := hd
    rcases List.mem_append.1 hd with h | h
    · revert h; decide
    · exact (suffix_chars b _ h).2.2.2 rfl
  | neg b => simp [CFun.name]
  | prod b => simp only [CFun.name, Fn.name]; decide +kernel
  | const c h =>
    rw [const_chars]
    intro hd
    rcases List.mem_append.1 hd with h' | h'
    · revert h'; decide
    · exact h h'
  | relu f h =>
    rw [plain_cname (relu_not_const h)]
    exact no_dot (lib_nameChars hS (.inr (.inr h)))
  | builtin f h hp =>
    rw [plain_cname (builtin_not_const h)]
    exact no_dot (lib_nameChars hS (.inl h))

theorem CClass.inj (hS : HexOk S) {f g : Fn ℝ} {c d : CFun ℝ} (h : CClass S f c) (h' : CClass S g d)
    (hn : c.name = d.name) : c = d ∧ depCount f = depCount g := by
  have ht : c.kind = d.kind := by rw [← h.tag, ← h'.tag, hn]
  have kb : ∀ {f : Fn ℝ}, f.builtin → f.plain = true → (CFun.fn f).kind = 4 := fun {f} h hp => by
    have := (CClass.builtin (S := S) f h hp).tag
    rw [← this, plain_cname (builtin_not_const h), builtin_tag h hp]
  have kr : ∀ {f : Fn ℝ}, (∃ s, S s ∧ (f = .relu s ∨ f = .relup s)) → (CFun.fn f).kind = 3 := fun {f} h => by
    obtain ⟨s, -, rfl | rfl⟩ := h <;> rfl
  have pow_inj : ∀ a b : PowAlgo, (CFun.pow a : CFun ℝ).name = (CFun.pow b : CFun ℝ).name → a = b := fun a b hab =>
    suffix_inj (List.append_cancel_left (show ['p', 'o', 'w'] ++ a.suffix = ['p', 'o', 'w'] ++ b.suffix from hab))
  have pow_sq : ∀ a : PowAlgo, (CFun.pow a : CFun ℝ).name ≠ (CFun.square : CFun ℝ).name := fun a => by
    cases a <;> simp [CFun.name, PowAlgo.suffix]
  have pow_sqrt : ∀ a : PowAlgo, (CFun.pow a : CFun ℝ).name ≠ (CFun.sqrt : CFun ℝ).name := fun a => by
    cases a <;> simp [CFun.name, PowAlgo.suffix]
  cases h with
  | sq a =>
    cases h' with
    | sq b => exact ⟨rfl, rfl⟩
    | sqrt b => exact absurd hn (by simp [CFun.name])
    | pow b x => exact absurd hn.symm (pow_sq x)
    | neg b => cases ht
    | prod b => cases ht
    | const c h => cases ht
    | relu f h => rw [kr h] at ht; cases ht
    | builtin f h hp => rw [kb h hp] at ht; cases ht
  | sqrt a =>
    cases h' with
    | sq b => exact absurd hn (by simp [CFun.name])
    | sqrt b => exact ⟨rfl, rfl⟩
    | pow b x => exact absurd hn.symm (pow_sqrt x)
    | neg b => cases ht
    | prod b => cases ht
    | const c h => cases ht
    | relu f h => rw [kr h] at ht; cases ht
    | builtin f h hp => rw [kb h hp] at ht; cases ht
  | pow a x =>
    cases h' with
    | sq b => exact absurd hn (pow_sq x)
    | sqrt b => exact absurd hn (pow_sqrt x)
    | pow b y => rw [pow_inj x y hn]; exact ⟨rfl, rfl⟩
    | neg b => cases ht
    | prod b => cases ht
    | const c h => cases ht
    | relu f h => rw [kr h] at ht; cases ht
    | builtin f h hp => rw [kb h hp] at ht; cases ht
  | neg a =>
    cases h' with
    | neg b => exact ⟨rfl, rfl⟩
    | prod b => simp only [CFun.name, Fn.name] at hn; exact absurd hn (by decide +kernel)
    | sq b => cases ht
    | sqrt b => cases ht
    | pow b x => cases ht
    | const c h => cases ht
    | relu f h => rw [kr h] at ht; cases ht
    | builtin f h hp => rw [kb h hp] at ht; cases ht
  | prod a =>
    cases h' with
    | neg b => simp only [CFun.name, Fn.name] at hn; exact absurd hn (by decide +kernel)
    | prod b => exact ⟨rfl, rfl⟩
    | sq b => cases ht
    | sqrt b => cases ht
    | pow b x => cases ht
    | const c h => cases ht
    | relu f h => rw [kr h] at ht; cases ht
    | builtin f h hp => rw [kb h hp] at ht; cases ht
  | const c h =>
    cases h' with
    | const d h' =>
      rw [const_chars, const_chars] at hn
      rw [String.toList_inj.1 (List.append_cancel_left hn)]
      exact ⟨rfl, rfl⟩
    | sq b => cases ht
    | sqrt b => cases ht
    | pow b x => cases ht
    | neg b => cases ht
    | prod b => cases ht
    | relu f h => rw [kr h] at ht; cases ht
    | builtin f h hp => rw [kb h hp] at ht; cases ht
  | relu f h =>
    rw [kr h] at ht
    cases h' with
    | relu g h' =>
      rw [plain_cname (relu_not_const h), plain_cname (relu_not_const h')] at hn
      rw [relu_inj hS h h' (String.toList_inj.1 hn)]
      exact ⟨rfl, rfl⟩
    | sq b => cases ht
    | sqrt b => cases ht
    | pow b x => cases ht
    | neg b => cases ht
    | prod b => cases ht
    | const c h => cases ht
    | builtin f h hp => rw [kb h hp] at ht; cases ht
  | builtin f h hp =>
    rw [kb h hp] at ht
    cases h' with
    | builtin g h' hp' =>
      rw [plain_cname (builtin_not_const h), plain_cname (builtin_not_const h')] at hn
      rw [builtin_eq h hp h' hp' (String.toList_inj.1 hn)]
      exact ⟨rfl, rfl⟩
    | sq b => cases ht
    | sqrt b => cases ht
    | pow b x => cases ht
    | neg b => cases ht
    | prod b => cases ht
    | const c h => cases ht
    | relu f h => rw [kr h] at ht; cases ht

/-- The names of the recurrences determine them. -/
theorem real_cnameSound (hS : HexOk S) (hU : UserNames S L) : CNameSound L :=
  ⟨fun f es h => (cclass_of hU h).dot hS, fun f es g es' h h' hn => (cclass_of hU h).inj hS (cclass_of hU h') hn⟩

end Heyoka.Taylor
