import Verif.Props.AD
import Verif.VarSys.Lists

/-!
# Tensors of derivatives and functions of lists
-/

set_option linter.unusedSectionVars false

open Filter Topology

namespace Heyoka.AD

open Heyoka.Sym Heyoka.Dtens

/-- The point where the variables and parameters `args` have the values `y`. -/
def envAt (v : Env ℝ) : List DVar → List ℝ → Env ℝ
  | a :: as, x :: xs => (envAt v as xs).set a x
  | _, _ => v

theorem envAt_set (v : Env ℝ) : ∀ (args : List DVar) (y : List ℝ) (k : Nat) (t : ℝ) (a : DVar), args.Nodup → y.length = args.length →
    args[k]? = some a → envAt v args (y.set k t) = (envAt v args y).set a t
  | [], _, k, t, a, _, _, h => by simp at h
  | b :: as, [], k, t, a, _, hl, h => by simp at hl
  | b :: as, x :: xs, 0, t, a, hn, hl, h => by
    simp only [List.getElem?_cons_zero, Option.some.injEq] at h
    subst h
    rw [List.set_cons_zero, envAt, envAt, set_set_same]
  | b :: as, x :: xs, k + 1, t, a, hn, hl, h => by
    rw [List.nodup_cons] at hn
    simp only [List.getElem?_cons_succ] at h
    have hne : b ≠ a := fun hc => hn.1 (hc ▸ List.mem_of_getElem? h)
    rw [List.set_cons_succ, envAt, envAt, envAt_set v as xs k t a hn.2 (by simpa using hl) h, set_set_comm _ _ _ hne.symm]

theorem envAt_get (v : Env ℝ) : ∀ (args : List DVar) (y : List ℝ) (k : Nat) (a : DVar) (x : ℝ), args.Nodup →
    args[k]? = some a → y[k]? = some x → (envAt v args y).get a = x
  | [], _, k, a, x, _, h, _ => by simp at h
  | b :: as, [], k, a, x, _, h, hl => by simp at hl
  | b :: as, z :: xs, 0, a, x, hn, h, hl => by
    simp only [List.getElem?_cons_zero, Option.some.injEq] at h hl
    subst h hl
    rw [envAt, get_set_same]
  | b :: as, z :: xs, k + 1, a, x, hn, h, hl => by
    rw [List.nodup_cons] at hn
    simp only [List.getElem?_cons_succ] at h hl
    have hne : a ≠ b := fun hc => hn.1 (hc ▸ List.mem_of_getElem? h)
    rw [envAt, set_get_of_ne _ _ hne, envAt_get v as xs k a x hn.2 h hl]

theorem envAt_out (v : Env ℝ) : ∀ (args : List DVar) (y : List ℝ) (a : DVar), a ∉ args → (envAt v args y).get a = v.get a
  | [], _, a, _ => by rw [envAt]; simp
  | b :: as, [], a, _ => by rw [envAt]; simp
  | b :: as, x :: xs, a, h => by
    rw [List.mem_cons, not_or] at h
    rw [envAt, set_get_of_ne _ _ h.1, envAt_out v as xs a h.2]

theorem envAt_time (v : Env ℝ) : ∀ (args : List DVar) (y : List ℝ), (envAt v args y).time = v.time
  | [], _ => by rw [envAt]; simp
  | b :: as, [] => by rw [envAt]; simp
  | b :: as, x :: xs => by
    rw [envAt, ← envAt_time v as xs]
    cases b <;> rfl

theorem get_ext {v w : Env ℝ} (h : ∀ x, v.get x = w.get x) (ht : v.time = w.time) : v = w := by
  obtain ⟨a, b, c⟩ := v
  obtain ⟨a', b', c'⟩ := w
  have h1 : a = a' := funext fun s => h (.var s)
  have h2 : b = b' := funext fun s => h (.par s)
  cases h1; cases h2; cases ht; rfl

theorem envAt_self (v : Env ℝ) : ∀ (args : List DVar), args.Nodup → envAt v args (args.map v.get) = v := by
  intro args hn
  refine get_ext (fun x => ?_) (envAt_time _ _ _)
  by_cases hx : x ∈ args
  · obtain ⟨k, hk⟩ := List.getElem?_of_mem hx
    exact envAt_get v args _ k x _ hn hk (by rw [List.getElem?_map, hk]; rfl)
  · exact envAt_out v args _ x hx

theorem partials_append (f : Env ℝ → ℝ) (xs ys : List DVar) : partials f (xs ++ ys) = partials (partials f xs) ys := by
  induction xs generalizing f with
  | nil => rfl
  | cons x xs ih => rw [List.cons_append, partials, partials, ih]

/-- The arguments of a derivative, each repeated according to its order. -/
def argSeq (args : List DVar) (α : List (Nat × Nat)) : List DVar := α.flatMap fun p => List.replicate p.2 (args.getD p.1 (.par 0))

section
variable {v : Env ℝ} {args : List DVar}

theorem lpd_env (hn : args.Nodup) {F : List ℝ → ℝ} {g : Env ℝ → ℝ} (h : ∀ y, y.length = args.length → F y = g (envAt v args y))
    {j : Nat} (hj : j < args.length) : ∀ y, y.length = args.length → lpd j F y = pderiv (args.getD j (.par 0)) g (envAt v args y) := by
  intro y hy
  have ha : args[j]? = some (args.getD j (.par 0)) := by simp [List.getD, hj]
  rw [lpd, pderiv]
  have h1 : y[j]? = some (y.getD j 0) := by simp [List.getD, hj, hy]
  rw [envAt_get v args y j _ _ hn ha h1]
  congr 1
  funext t
  rw [h _ (by simpa using hy), envAt_set v args y j t _ hn hy ha]

theorem iter_env (hn : args.Nodup) {F : List ℝ → ℝ} {g : Env ℝ → ℝ} (h : ∀ y, y.length = args.length → F y = g (envAt v args y))
    {j : Nat} (hj : j < args.length) (n : Nat) : ∀ y, y.length = args.length →
      (lpd j)^[n] F y = partials g (List.replicate n (args.getD j (.par 0))) (envAt v args y) := by
  induction n with
  | zero => exact h
  | succ n ih =>
    intro y hy
    rw [Function.iterate_succ_apply', List.replicate_succ', partials_append, partials, partials]
    exact lpd_env hn ih hj y hy

/-- The partial derivatives of a function of the point, as partial derivatives of a function of the values of the arguments. -/
theorem dpart_env (hn : args.Nodup) {F : List ℝ → ℝ} {g : Env ℝ → ℝ} (h : ∀ y, y.length = args.length → F y = g (envAt v args y))
    (α : List (Nat × Nat)) (hα : ∀ p ∈ α, p.1 < args.length) : ∀ y, y.length = args.length →
      dpart α F y = partials g (argSeq args α.reverse) (envAt v args y) := by
  induction α with
  | nil => exact h
  | cons p α ih =>
    intro y hy
    rw [List.reverse_cons, argSeq, List.flatMap_append, ← argSeq, partials_append, dpart]
    have := iter_env hn (ih fun q hq => hα q (List.mem_cons_of_mem _ hq)) (hα p List.mem_cons_self) p.2 y hy
    simpa [argSeq] using this

theorem argSeq_add (j : Nat) (α : List (Nat × Nat)) : (argSeq args (addIdx j α)).Perm (args.getD j (.par 0) :: argSeq args α) := by
  induction α with
  | nil => simp [addIdx, argSeq]
  | cons p α ih =>
    obtain ⟨k, o⟩ := p
    rw [addIdx]
    by_cases h1 : k < j
    · rw [if_pos h1, argSeq, List.flatMap_cons, argSeq, List.flatMap_cons, ← argSeq, ← argSeq]
      exact (ih.append_left _).trans List.perm_middle
    · rw [if_neg h1]
      by_cases h2 : k = j
      · subst h2
        rw [if_pos rfl, argSeq, List.flatMap_cons, argSeq, List.flatMap_cons, List.replicate_succ, List.cons_append]
      · rw [if_neg h2, argSeq, List.flatMap_cons, argSeq]
        simp

theorem degree_add (j : Nat) (α : List (Nat × Nat)) : degree (addIdx j α) = degree α + 1 := by
  induction α with
  | nil => simp [addIdx, degree]
  | cons p α ih =>
    obtain ⟨k, o⟩ := p
    rw [addIdx]
    unfold degree at ih ⊢
    by_cases h1 : k < j
    · rw [if_pos h1, List.map_cons, List.sum_cons, ih]; simp; omega
    · rw [if_neg h1]
      by_cases h2 : k = j
      · rw [if_pos h2]; simp; omega
      · rw [if_neg h2]; simp; omega

variable [DFunc] [FmtName ℝ] {S : Fn ℝ → Nat → Prop} {es : List (Expr ℝ)} {order : Nat} {m : List (SIdx × Expr ℝ)}

/-- The entries of the tensor are the partial derivatives. -/
theorem Tensor.chain (ht : Tensor S es args order m) : ∀ (n : Nat), ∀ q ∈ m, degree q.1.2 = n → ∀ e, es[q.1.1]? = some e →
    ∃ L, PChain e L q.2 ∧ L.Perm (argSeq args q.1.2) := by
  intro n
  induction n with
  | zero =>
    intro q hq hd e he
    have hs := ((ht.complete.keys q.1).1 ⟨q, hq, rfl⟩).2.1
    have h0 : q.1.2 = [] := by
      cases h : q.1.2 with
      | nil => rfl
      | cons p l =>
        rw [h] at hs hd
        have := hs.2 p List.mem_cons_self
        simp only [degree, List.map_cons, List.sum_cons] at hd
        omega
    have h1 := ht.base q.1.1 e he
    have h2 := ht.complete.lookup h1
    have h3 := ht.complete.lookup hq
    rw [show q.1 = (q.1.1, []) from Prod.ext rfl h0, h2] at h3
    cases Option.some.inj h3
    rw [h0]
    exact ⟨[], .nil _, .refl _⟩
  | succ n ih =>
    intro q hq hd e he
    obtain ⟨p, hp, j, x, hx, hk, -, hder⟩ := ht.src q hq (by intro h; rw [h] at hd; cases hd)
    have hdp : degree p.1.2 = n := by
      rw [hk, degree_add] at hd
      omega
    obtain ⟨L, h1, h2⟩ := ih p hp hdp e (by rw [hk] at he; exact he)
    refine ⟨L ++ [x], h1.snoc hder.pderiv, ?_⟩
    rw [hk]
    have hx' : args.getD j (.par 0) = x := by simp [List.getD, hx]
    have := argSeq_add (args := args) j p.1.2
    rw [hx'] at this
    exact (List.perm_append_singleton _ _).trans ((h2.cons x).trans this.symm)

theorem argSeq_reverse (α : List (Nat × Nat)) : (argSeq args α.reverse).Perm (argSeq args α) :=
  List.Perm.flatMap_right _ (List.reverse_perm α)

/-- The value of an entry of the tensor. -/
theorem Tensor.value (ht : Tensor S es args order m) (hn : args.Nodup) {q : SIdx × Expr ℝ} (hq : q ∈ m) {e : Expr ℝ}
    (he : es[q.1.1]? = some e) {v : Env ℝ} (hv : Reg v e) :
    q.2.eval v = some (dpart q.1.2 (fun y => e.val (envAt v args y)) (args.map v.get)) := by
  obtain ⟨L, h1, h2⟩ := ht.chain _ q hq rfl e he
  have hb := ((ht.complete.keys q.1).1 ⟨q, hq, rfl⟩).2.2.1
  rw [h1.val hv, partials_perm (h2.trans (argSeq_reverse _).symm) hv,
    dpart_env hn (g := e.val) (fun y _ => rfl) q.1.2 hb _ (by simp), envAt_self v args hn]

end

end Heyoka.AD
