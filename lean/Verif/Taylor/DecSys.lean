import Verif.Taylor.DecPasses
import Verif.Decomp.Machine
import Verif.Expr.BuildLemmas

/-!
# The decompositions of the functions: the elements appended by each function
-/

set_option linter.unusedSectionVars false

open Filter Topology

namespace Heyoka.Taylor

open Heyoka.Sym

variable {par : ℕ → ℝ} {F F' : ℕ → ℝ → ℝ} {t t0 : ℝ} {i n n' neq : ℕ} {P : Fn ℝ → Prop} {X : ℕ → ℝ → ℝ}

/-! ### The curves of a decomposition -/

/-- The elements of a decomposition read previous elements only. -/
def Shape (i : ℕ) : Expr ℝ → Prop
  | .fn _ es => ∀ a ∈ es, ArgOk i a
  | .num _ => True
  | _ => False

/-- The curves `F` are computed by the decomposition from the state variables `X`. -/
structure Fits (par : ℕ → ℝ) (neq : ℕ) (X F : ℕ → ℝ → ℝ) (dc : TDc ℝ) : Prop where
  state : ∀ j < neq, F j = X j
  elem : ∀ (i : ℕ) (e : TElem ℝ), neq ≤ i → dc[i]? = some e → F i = fun t => (e.1.eval (envF par F t)).getD 0

theorem Fits.prefix {dc d : TDc ℝ} (h : Fits par neq X F (dc ++ d)) : Fits par neq X F dc :=
  ⟨h.state, fun i e hi he => h.elem i e hi (by
    rw [List.getElem?_append_left (List.getElem?_eq_some_iff.1 he).1]; exact he)⟩

theorem Fits.new {dc d : TDc ℝ} (h : Fits par neq X F (dc ++ d)) (hl : neq ≤ dc.length) {k : ℕ} {e : TElem ℝ}
    (he : d[k]? = some e) : F (dc.length + k) = fun t => (e.1.eval (envF par F t)).getD 0 :=
  h.elem _ e (by omega) (by rw [List.getElem?_append_right (by omega), Nat.add_sub_cancel_left]; exact he)

theorem eval_arg_congr {a : Expr ℝ} (ha : ArgOk i a) (h : ∀ j < i, F' j t = F j t) :
    a.eval (envF par F' t) = a.eval (envF par F t) := by
  cases a with
  | var s =>
    obtain ⟨j, hj, rfl⟩ := ha
    simp [envF, h j hj]
  | fn f as => exact absurd ha (by simp [ArgOk])
  | _ => simp [envF]

theorem eval_shape_congr {e : Expr ℝ} (he : Shape i e) (h : ∀ j < i, F' j t = F j t) :
    e.eval (envF par F' t) = e.eval (envF par F t) := by
  cases e with
  | fn f es =>
    rw [← appO_eval, ← appO_eval, appO_env (v := envF par F' t) (v' := envF par F t) rfl]
    exact congrArg _ (List.map_congr_left fun a ha => eval_arg_congr (he a ha) h)
  | num m => simp
  | _ => exact he.elim

/-- Every decomposition determines curves. -/
theorem exists_fits (par : ℕ → ℝ) (neq : ℕ) (X : ℕ → ℝ → ℝ) (dc : TDc ℝ)
    (h : ∀ (i : ℕ) (e : TElem ℝ), neq ≤ i → dc[i]? = some e → Shape i e.1) : ∃ F, Fits par neq X F dc := by
  induction dc using List.reverseRecOn with
  | nil => exact ⟨X, fun _ _ => rfl, fun i e _ he => by simp at he⟩
  | append_singleton dc e ih =>
    obtain ⟨F, hF⟩ := ih fun i e hi he => h i e hi (by
      rw [List.getElem?_append_left (List.getElem?_eq_some_iff.1 he).1]; exact he)
    rcases Nat.lt_or_ge dc.length neq with hlt | hge
    · refine ⟨F, hF.state, fun i e' hi he => ?_⟩
      rw [List.getElem?_eq_none (by simp; omega)] at he
      cases he
    · refine ⟨Function.update F dc.length fun t => (e.1.eval (envF par F t)).getD 0, fun j hj => ?_, ?_⟩
      · rw [Function.update_of_ne (by omega)]; exact hF.state j hj
      · have key : ∀ (i : ℕ), i ≤ dc.length → ∀ j < i, ∀ t,
            (Function.update F dc.length fun t => (e.1.eval (envF par F t)).getD 0) j t = F j t := by
          intro i hi j hj t
          rw [Function.update_of_ne (by omega)]
        intro i e' hi he
        rcases getElem?_snoc he with ⟨hlt, he'⟩ | ⟨rfl, rfl⟩
        · rw [Function.update_of_ne (by omega), hF.elem i e' hi he']
          funext t
          rw [eval_shape_congr (h i e' hi he) fun j hj => key i (by omega) j hj t]
        · rw [Function.update_self]
          funext t
          rw [eval_shape_congr (h _ e' hge (by simp)) fun j hj => key _ (le_refl _) j hj t]

/-! ### Regular points of the functions of an expression -/

/-- The value of an expression along curves, given by the values of the variables at each time (zero where it is
not defined). -/
noncomputable def av (E : ℝ → Env ℝ) (a : Expr ℝ) (t : ℝ) : ℝ := (a.eval (E t)).getD 0

/-- The argument is a number or a parameter. -/
def IsConst : Expr ℝ → Prop
  | .num _ | .par _ => True
  | _ => False

/-- The shapes of arguments accepted by the recurrences. -/
def ShapeOk : Fn ℝ → List (Expr ℝ) → Prop
  | .sum, as | .sumSq, as | .land, as | .lor, as => as ≠ []
  | .prod _, as => as.length = 2
  | .pow _, as => ∃ x m, as = [x, .num m]
  | .numId, as => ∃ m, as = [.num m]
  | .kepDE, _ => False
  | _, _ => True

/-- Regular points of a function of an expression along the curves. -/
def RegAt (E : ℝ → Env ℝ) (t0 : ℝ) : Fn ℝ → List (Expr ℝ) → Prop
  | .asin, [b] | .acos, [b] => -1 < av E b t0 ∧ av E b t0 < 1
  | .acosh, [b] => 1 < av E b t0
  | .atan2, [y, x] => 0 < av E x t0 ∨ av E y t0 ≠ 0
  | .pow _, [b, e] => av E b t0 ≠ 0 ∨ ∃ m, e = .num m ∧ m.toK? = some 2
  | .kepE, as => av E (.fn .kepE as) t0 ≠ 0
  | .kepF, as => av E (.fn .kepF as) t0 ≠ 0
  | .relu _, [b] | .relup _, [b] => ∀ᶠ t in 𝓝 t0, (0 < av E b t ↔ 0 < av E b t0)
  | .select, [c, _, _] => ∀ᶠ t in 𝓝 t0, (av E c t ≠ 0 ↔ av E c t0 ≠ 0)
  | .rel op, [a, b] =>
    ∀ᶠ t in 𝓝 t0, (op.holds (av E a t) (av E b t) ↔ op.holds (av E a t0) (av E b t0))
  | .land, as => ∀ᶠ t in 𝓝 t0, ((∀ a ∈ as, av E a t ≠ 0) ↔ ∀ a ∈ as, av E a t0 ≠ 0)
  | .lor, as => ∀ᶠ t in 𝓝 t0, ((∃ a ∈ as, av E a t ≠ 0) ↔ ∃ a ∈ as, av E a t0 ≠ 0)
  | _, _ => True

/-- The functions with hidden dependencies which are not smooth at the ends of the domain. -/
def isEdge : Fn ℝ → Prop
  | .asin | .acos | .acosh => True
  | _ => False

/-- A function of an expression whose decomposition and recurrence are right along the curves `X`. -/
structure NodeGood (P : Fn ℝ → Prop) (par : ℕ → ℝ) (neq : ℕ) (X : ℕ → ℝ → ℝ) (t0 : ℝ) (f : Fn ℝ)
    (as : List (Expr ℝ)) : Prop where
  fn : P f
  leaves : LeavesOk neq as
  shape : ShapeOk f as
  defined : ∀ᶠ t in 𝓝 t0, ∃ x, (Expr.fn f as).eval (envF par X t) = some x
  reg : ((∀ a ∈ as, IsConst a) ∧ ¬isEdge f) ∨ RegAt (envF par X) t0 f as

/-- The element `i` stands for the expression `e`. -/
def TDef (par : ℕ → ℝ) (neq : ℕ) (X : ℕ → ℝ → ℝ) (t0 : ℝ) (dc : TDc ℝ) (i : ℕ) (e : Expr ℝ) : Prop :=
  neq ≤ i ∧ i < dc.length ∧
    ∀ F, Fits par neq X F dc → ∀ᶠ t in 𝓝 t0, e.eval (envF par X t) = some (F i t)

/-- The invariant of the construction. -/
structure TInv (P : Fn ℝ → Prop) (par : ℕ → ℝ) (neq : ℕ) (X : ℕ → ℝ → ℝ) (t0 : ℝ) (dc : TDc ℝ) : Prop where
  len : neq ≤ dc.length
  vars : ∀ (i : ℕ) (e : TElem ℝ), i < neq → dc[i]? = some e → e.2 = []
  shape : ∀ (i : ℕ) (e : TElem ℝ), neq ≤ i → dc[i]? = some e → Shape i e.1
  elem : ∀ F, Fits par neq X F dc → ∀ (i : ℕ) (e : TElem ℝ), neq ≤ i → dc[i]? = some e →
    TElemOk P F t0 par dc.length i e

theorem TInv.append {dc d : TDc ℝ} (h : TInv P par neq X t0 dc)
    (hs : ∀ (k : ℕ) (e : TElem ℝ), d[k]? = some e → Shape (dc.length + k) e.1)
    (he : ∀ F, Fits par neq X F (dc ++ d) → ∀ (k : ℕ) (e : TElem ℝ), d[k]? = some e →
      TElemOk P F t0 par (dc ++ d).length (dc.length + k) e) : TInv P par neq X t0 (dc ++ d) := by
  have hsplit : ∀ (i : ℕ) (e : TElem ℝ), (dc ++ d)[i]? = some e → (i < dc.length ∧ dc[i]? = some e) ∨
      ∃ k, i = dc.length + k ∧ d[k]? = some e := by
    intro i e hi
    rcases Nat.lt_or_ge i dc.length with h1 | h1
    · rw [List.getElem?_append_left h1] at hi; exact .inl ⟨h1, hi⟩
    · rw [List.getElem?_append_right h1] at hi; exact .inr ⟨i - dc.length, by omega, hi⟩
  refine ⟨by have := h.len; simp; omega, ?_, ?_, ?_⟩
  · intro i e hi hie
    rcases hsplit i e hie with ⟨-, h1⟩ | ⟨k, rfl, h1⟩
    · exact h.vars i e hi h1
    · have := h.len; omega
  · intro i e hi hie
    rcases hsplit i e hie with ⟨-, h1⟩ | ⟨k, rfl, h1⟩
    · exact h.shape i e hi h1
    · exact hs k e h1
  · intro F hF i e hi hie
    rcases hsplit i e hie with ⟨-, h1⟩ | ⟨k, rfl, h1⟩
    · exact (h.elem F hF.prefix i e hi h1).mono (by simp)
    · exact he F hF k e h1

/-! ### The arguments -/

section args
variable {dc : TDc ℝ} {as as' : List (Expr ℝ)}

theorem tstands_argOk (hl : neq ≤ dc.length) (hst : List.Forall₂ (Stands (TDef par neq X t0) dc) as' as)
    (hlv : LeavesOk neq as) : ∀ a ∈ as', ArgOk dc.length a := by
  induction hst with
  | nil => simp
  | @cons x y xs ys h1 _ ih =>
    intro a ha
    rcases List.mem_cons.1 ha with rfl | ha
    · unfold Stands at h1
      split at h1
      · obtain ⟨i, rfl, h2⟩ := h1
        exact ⟨i, h2.2.1, rfl⟩
      · rename_i hnf
        subst h1
        cases a with
        | var s =>
          obtain ⟨j, hj, rfl⟩ := hlv s List.mem_cons_self
          exact ⟨j, by omega, rfl⟩
        | fn f as => simp [Expr.isFn] at hnf
        | _ => trivial
    · exact ih (fun s hs => hlv s (List.mem_cons_of_mem _ hs)) a ha

theorem argFn_targU {a : Expr ℝ} (ha : ArgOk i a) : argFn F (targU par a) t = (a.eval (envF par F t)).getD 0 := by
  rw [← argAt_targU ha]
  cases a with
  | fn f as => exact absurd ha (by simp [ArgOk])
  | _ => rfl

/-- The arguments have the values of the original ones. -/
theorem tstands_eval (hl : neq ≤ dc.length) (hst : List.Forall₂ (Stands (TDef par neq X t0) dc) as' as)
    (hlv : LeavesOk neq as) (hF : Fits par neq X F dc) :
    ∀ᶠ t in 𝓝 t0, as'.map (fun a => a.eval (envF par F t)) = as.map fun a => a.eval (envF par X t) := by
  induction hst with
  | nil => simp
  | @cons x y xs ys h1 _ ih =>
    have ih := ih fun s hs => hlv s (List.mem_cons_of_mem _ hs)
    unfold Stands at h1
    split at h1
    · obtain ⟨i, rfl, h2⟩ := h1
      filter_upwards [ih, h2.2.2 F hF] with t h3 h4
      rw [List.map_cons, List.map_cons, h3, h4]
      simp [envF]
    · rename_i hnf
      subst h1
      filter_upwards [ih] with t h3
      rw [List.map_cons, List.map_cons, h3]
      cases x with
      | var s =>
        obtain ⟨j, hj, rfl⟩ := hlv s List.mem_cons_self
        simp [envF, hF.state j hj]
      | fn f as => simp [Expr.isFn] at hnf
      | _ => simp [envF]

/-- The arguments as functions of time. -/
theorem tstands_fn (hl : neq ≤ dc.length) (hst : List.Forall₂ (Stands (TDef par neq X t0) dc) as' as)
    (hlv : LeavesOk neq as) (hF : Fits par neq X F dc) :
    ∀ᶠ t in 𝓝 t0, (as'.map (targU par)).map (fun a => argFn F a t) = as.map fun a => av (envF par X) a t := by
  filter_upwards [tstands_eval hl hst hlv hF] with t ht
  have h1 : (as'.map (targU par)).map (fun a => argFn F a t) =
      (as'.map fun a => a.eval (envF par F t)).map fun x => x.getD 0 := by
    rw [List.map_map, List.map_map]
    exact List.map_congr_left fun a ha => argFn_targU (tstands_argOk hl hst hlv a ha)
  rw [h1, ht, List.map_map]
  rfl

theorem stands_const (hst : List.Forall₂ (Stands (TDef par neq X t0) dc) as' as) (h : ∀ a ∈ as, IsConst a) :
    ∀ a ∈ as'.map (targU par), a.isCst := by
  induction hst with
  | nil => simp
  | @cons x y xs ys h1 _ ih =>
    have hy := h y List.mem_cons_self
    have h2 : x = y := by
      unfold Stands at h1
      cases y <;> first | exact hy.elim | simpa [Expr.isFn] using h1
    subst h2
    intro a ha
    rcases List.mem_cons.1 ha with rfl | ha
    · cases x <;> first | exact hy.elim | trivial
    · exact ih (fun b hb => h b (List.mem_cons_of_mem _ hb)) a ha

theorem stands_shape (hst : List.Forall₂ (Stands (TDef par neq X t0) dc) as' as) {f : Fn ℝ} (h : ShapeOk f as) :
    Supported f (as'.map (targU par)) := by
  have hlen := hst.length_eq
  have hnum : ∀ {x : Expr ℝ} {m : Num ℝ}, Stands (TDef par neq X t0) dc x (.num m) → x = .num m := by
    intro x m hx
    simpa [Stands, Expr.isFn] using hx
  have hne : as ≠ [] → as'.map (targU par) ≠ [] := by
    intro h1 h2
    rw [List.map_eq_nil_iff] at h2
    subst h2
    exact h1 (List.length_eq_zero_iff.1 hlen.symm)
  cases f
  case sum => exact hne h
  case sumSq => exact hne h
  case land => exact hne h
  case lor => exact hne h
  case prod b => show (as'.map (targU par)).length = 2; rw [List.length_map, hlen]; exact h
  case pow k =>
    obtain ⟨x, m, rfl⟩ := h
    rcases hst with _ | ⟨h1, _ | ⟨h2, _ | _⟩⟩
    rw [hnum h2]
    exact ⟨_, _, _, rfl⟩
  case numId =>
    obtain ⟨m, rfl⟩ := h
    rcases hst with _ | ⟨h1, _ | _⟩
    rw [hnum h1]
    exact ⟨_, rfl⟩
  case kepDE => exact h.elim
  all_goals trivial

end args

end Heyoka.Taylor
