import Verif.Theory.Model
import Mathlib.Analysis.SpecialFunctions.Trigonometric.Basic
import Mathlib.Analysis.SpecialFunctions.Complex.Circle

/-!
# Lemmas about the analytical theories
-/

set_option linter.unusedSectionVars false

namespace Heyoka.Theory

open Heyoka.Sym Heyoka.Models

/-- The polynomial with the given coefficients, the constant one first. -/
def poly (cs : List ℝ) (t : ℝ) : ℝ :=
  match cs with
  | [] => 0
  | c :: cs => c + t * poly cs t

/-- The integral combination of the arguments. -/
def comb (as : List ℝ) (ns : List Int) : ℝ := ((as.zip ns).map fun p => (p.2 : ℝ) * p.1).sum

section
variable [DFunc] {v : Env ℝ}

/-- The value of a complex expression. -/
def CEv (v : Env ℝ) (c : CE) (z : ℂ) : Prop := c.1.eval v = some z.re ∧ c.2.eval v = some z.im

theorem CEv.mul {a b : CE} {z w : ℂ} (ha : CEv v a z) (hb : CEv v b w) : CEv v (exCmul a b) (z * w) := by
  constructor
  · rw [Complex.mul_re]; exact ev_sub (eval_mulE ha.1 hb.1) (eval_mulE ha.2 hb.2)
  · rw [Complex.mul_im]
    refine (ev_add (eval_mulE ha.2 hb.1) (eval_mulE ha.1 hb.2)).trans ?_
    rw [add_comm]

theorem CEv.inv {a : CE} {z : ℂ} (ha : CEv v a z) (h0 : z ≠ 0) : CEv v (exCinv a) z⁻¹ := by
  have hd := ev_add (ev_sq ha.1) (ev_sq ha.2)
  have hn : z.re ^ 2 + z.im ^ 2 = Complex.normSq z := by rw [Complex.normSq_apply]; ring
  have h1 : z.re ^ 2 + z.im ^ 2 ≠ 0 := by rw [hn]; simpa using h0
  constructor
  · rw [Complex.inv_re, ← hn]; exact eval_divE ha.1 hd h1
  · rw [Complex.inv_im, ← hn]; exact eval_divE (ev_neg ha.2) hd h1

/-- The complex exponential of a multiple of an angle. -/
noncomputable def E (θ : ℝ) (n : Int) : ℂ := Complex.exp (((n * θ : ℝ) : ℂ) * Complex.I)

theorem E_re (θ : ℝ) (n : Int) : (E θ n).re = Real.cos (n * θ) := Complex.exp_ofReal_mul_I_re _
theorem E_im (θ : ℝ) (n : Int) : (E θ n).im = Real.sin (n * θ) := Complex.exp_ofReal_mul_I_im _

theorem E_add (θ : ℝ) (m n : Int) : E θ m * E θ n = E θ (m + n) := by
  rw [E, E, E, ← Complex.exp_add]; congr 1; push_cast; ring

theorem E_zero (θ : ℝ) : E θ 0 = 1 := by simp [E]

theorem E_neg (θ : ℝ) (n : Int) : (E θ n)⁻¹ = E θ (-n) := by
  rw [E, E, ← Complex.exp_neg]; congr 1; push_cast; ring

/-! ### The cache of powers -/

/-- A dictionary of powers of an angle. -/
structure Good (v : Env ℝ) (θ : ℝ) (pd : PowDict) : Prop where
  val : ∀ m c, pd.lookup m = some c → CEv v c (E θ m)
  zero : (pd.lookup 0).isSome
  one : (pd.lookup 1).isSome
  mone : (pd.lookup (-1)).isSome

theorem lookup_cons_ne {α β : Type} [BEq α] [LawfulBEq α] {k m : α} {c : β} {l : List (α × β)} (h : m ≠ k) : ((k, c) :: l).lookup m = l.lookup m := by
  rw [List.lookup_cons, beq_false_of_ne h]

theorem Good.cons {θ : ℝ} {pd : PowDict} (h : Good v θ pd) {n : Int} {c : CE} (hc : CEv v c (E θ n)) : Good v θ ((n, c) :: pd) := by
  have key : ∀ m, (pd.lookup m).isSome → (List.lookup m ((n, c) :: pd)).isSome := by
    intro m hm
    by_cases e : m = n
    · subst e; simp
    · rwa [lookup_cons_ne e]
  refine ⟨fun m d hd => ?_, key 0 h.zero, key 1 h.one, key (-1) h.mone⟩
  by_cases e : m = n
  · subst e; simp at hd; subst hd; exact hc
  · rw [lookup_cons_ne e] at hd; exact h.val m d hd

theorem ccpowImpl_ok {θ : ℝ} {pow1 powm1 : CE} (h1 : CEv v pow1 (E θ 1)) (hm1 : CEv v powm1 (E θ (-1))) :
    ∀ (fuel : Nat) (pd : PowDict) (n : Int), Good v θ pd → n.natAbs < fuel →
      ∃ c pd', ccpowImpl pow1 powm1 fuel pd n = .ok (c, pd') ∧ CEv v c (E θ n) ∧ Good v θ pd' ∧ (0 ≤ n → ∀ m, n < m → pd'.lookup m = pd.lookup m) ∧
        (n < 0 → ∀ m, m < n → pd'.lookup m = pd.lookup m) := by
  intro fuel
  induction fuel with
  | zero => intro pd n _ h; omega
  | succ fuel ih =>
    intro pd n hg hf
    rw [ccpowImpl]
    cases hl : pd.lookup n with
    | some c => exact ⟨c, pd, rfl, hg.val n c hl, hg, fun _ _ _ => rfl, fun _ _ _ => rfl⟩
    | none =>
      have hn0 : n ≠ 0 := by rintro rfl; have := hg.zero; rw [hl] at this; simp at this
      by_cases hn : 0 ≤ n
      · obtain ⟨c, pd', e, hc, hg', hk, -⟩ := ih pd (n - 1) hg (by omega)
        have hl' : pd'.lookup n = none := by rw [hk (by omega) n (by omega), hl]
        have hv : CEv v (exCmul pow1 c) (E θ n) := by
          have := h1.mul hc
          rwa [E_add, add_sub_cancel] at this
        refine ⟨exCmul pow1 c, (n, exCmul pow1 c) :: pd', ?_, hv, hg'.cons hv, fun _ m hm => ?_, fun h => by omega⟩
        · simp only [if_pos hn, e, Res.bind_ok, hl']
          simp
        · rw [lookup_cons_ne (by omega), hk (by omega) m (by omega)]
      · obtain ⟨c, pd', e, hc, hg', hp, hk⟩ := ih pd (n + 1) hg (by omega)
        have hkk : ∀ m, m < n + 1 → pd'.lookup m = pd.lookup m := by
          intro m hm
          by_cases hz : n + 1 < 0
          · exact hk hz m hm
          · -- then `n = -1`, which is there
            have : n = -1 := by omega
            subst this
            have := hg.mone
            rw [hl] at this; simp at this
        have hl' : pd'.lookup n = none := by rw [hkk n (by omega), hl]
        have hv : CEv v (exCmul powm1 c) (E θ n) := by
          have := hm1.mul hc
          rwa [E_add, neg_add_cancel_comm_assoc] at this
        refine ⟨exCmul powm1 c, (n, exCmul powm1 c) :: pd', ?_, hv, hg'.cons hv, fun h => by omega, fun _ m hm => ?_⟩
        · simp only [if_neg hn, e, Res.bind_ok, hl']
          simp
        · rw [lookup_cons_ne (by omega), hkk m (by omega)]

/-- The invariant of the cache: the powers of the arguments. -/
def Inv (v : Env ℝ) (td : TrigDict) : Prop := ∀ a pd, td.lookup a = some pd → ∃ θ, a.eval v = some θ ∧ Good v θ pd

/-- The arguments which are in the cache. -/
def Has (td : TrigDict) (a : Expr ℝ) : Prop := (td.lookup a).isSome

theorem lookup_setKey {ex : Expr ℝ} {pd : PowDict} {td : TrigDict} (a : Expr ℝ) :
    (setKey ex pd td).lookup a = if a = ex then (td.lookup a).map (fun _ => pd) else td.lookup a := by
  induction td with
  | nil => simp [setKey]
  | cons e td ih =>
    obtain ⟨k, p⟩ := e
    simp only [setKey, List.map_cons] at ih ⊢
    by_cases hk : k = ex
    · subst hk
      by_cases ha : a = k
      · subst ha; simp
      · simp only [if_true, if_neg ha] at ih ⊢
        rw [lookup_cons_ne ha, lookup_cons_ne ha, ih]
    · rw [if_neg hk]
      by_cases ha : a = k
      · subst ha; simp [hk]
      · rw [lookup_cons_ne ha, lookup_cons_ne ha, ih]

theorem ccpow_ok {td : TrigDict} (hi : Inv v td) {a : Expr ℝ} {θ : ℝ} (ha : a.eval v = some θ) (hh : Has td a) {n : Int} (hn : -128 ≤ n ∧ n ≤ 127) :
    ∃ c td', ccpow a td n = .ok (c, td') ∧ CEv v c (E θ n) ∧ Inv v td' ∧ ∀ b, Has td b → Has td' b := by
  rw [Has, Option.isSome_iff_exists] at hh
  obtain ⟨pd, hl⟩ := hh
  obtain ⟨θ', ha', hg⟩ := hi a pd hl
  rw [ha] at ha'
  obtain rfl := Option.some.inj ha'
  obtain ⟨p1, e1⟩ := Option.isSome_iff_exists.1 hg.one
  obtain ⟨m1, e2⟩ := Option.isSome_iff_exists.1 hg.mone
  obtain ⟨c, pd', e, hc, hg', -, -⟩ := ccpowImpl_ok (hg.val 1 p1 e1) (hg.val (-1) m1 e2) 256 pd n hg (by omega)
  refine ⟨c, setKey a pd' td, ?_, hc, fun b q hb => ?_, fun b hb => ?_⟩
  · rw [ccpow, hl]
    simp only [e1, e2, e, Res.bind_ok]
  · rw [lookup_setKey] at hb
    by_cases hba : b = a
    · subst hba
      rw [if_pos rfl, hl, Option.map_some] at hb
      obtain rfl := Option.some.inj hb
      exact ⟨θ, ha, hg'⟩
    · rw [if_neg hba] at hb
      exact hi b q hb
  · rw [Has, lookup_setKey]
    by_cases hba : b = a
    · rw [if_pos hba]; simpa [Has] using hb
    · rw [if_neg hba]; exact hb

theorem seed_ok {td : TrigDict} (hi : Inv v td) {a : Expr ℝ} {θ : ℝ} (ha : a.eval v = some θ) :
    Inv v (seed td a) ∧ Has (seed td a) a ∧ ∀ b, Has td b → Has (seed td a) b := by
  unfold seed
  simp only
  by_cases hh : (td.lookup a).isSome
  · rw [if_pos hh]; exact ⟨hi, hh, fun b hb => hb⟩
  · rw [if_neg hh]
    have hc : CEv v (unaryE (.cos false) a, unaryE (.sin false) a) (E θ 1) := by
      refine ⟨?_, ?_⟩
      · rw [E_re]; simpa using ev_cos ha
      · rw [E_im]; simpa using ev_sin ha
    have hz : E θ 1 ≠ 0 := Complex.exp_ne_zero _
    have hm := hc.inv hz
    rw [E_neg] at hm
    refine ⟨fun b pd hb => ?_, by simp [Has], fun b hb => ?_⟩
    · by_cases hba : b = a
      · subst hba
        simp only [List.lookup_cons_self] at hb
        obtain rfl := Option.some.inj hb
        refine ⟨θ, ha, fun m c hmc => ?_, rfl, rfl, rfl⟩
        by_cases h1 : m = -1
        · subst h1; simp only [List.lookup_cons_self] at hmc; obtain rfl := Option.some.inj hmc; exact hm
        · rw [lookup_cons_ne h1] at hmc
          by_cases h2 : m = 1
          · subst h2; simp only [List.lookup_cons_self] at hmc; obtain rfl := Option.some.inj hmc; exact hc
          · rw [lookup_cons_ne h2] at hmc
            by_cases h3 : m = 0
            · subst h3; simp only [List.lookup_cons_self] at hmc; obtain rfl := Option.some.inj hmc
              rw [E_zero]; exact ⟨by simp, by simp⟩
            · rw [lookup_cons_ne h3] at hmc; simp at hmc
      · rw [lookup_cons_ne hba] at hb
        exact hi b pd hb
    · by_cases hba : b = a
      · subst hba; simp [Has]
      · rw [Has, lookup_cons_ne hba]; exact hb

theorem seeds_ok {as : List (Expr ℝ)} {xs : List ℝ} (h : List.Forall₂ (fun a x => Expr.eval v a = some x) as xs) :
    ∀ {td : TrigDict}, Inv v td → Inv v (as.foldl seed td) ∧ (∀ a ∈ as, Has (as.foldl seed td) a) ∧ ∀ b, Has td b → Has (as.foldl seed td) b := by
  induction h with
  | nil => intro td hi; exact ⟨hi, by simp, fun b hb => hb⟩
  | cons ha _ ih =>
    intro td hi
    obtain ⟨h1, h2, h3⟩ := seed_ok hi ha
    obtain ⟨k1, k2, k3⟩ := ih h1
    refine ⟨k1, fun a hm => ?_, fun b hb => k3 b (h3 b hb)⟩
    rcases List.mem_cons.1 hm with rfl | hm
    · exact k3 _ h2
    · exact k2 a hm

/-! ### Products -/

theorem pairStep_ok : ∀ {l : List CE} {zs : List ℂ}, List.Forall₂ (CEv v) l zs → ∃ ws, List.Forall₂ (CEv v) (pairStep l) ws ∧ ws.prod = zs.prod
  | _, _, .nil => ⟨[], .nil, rfl⟩
  | _, _, .cons h .nil => ⟨[_], .cons h .nil, rfl⟩
  | _, _, .cons h1 (.cons h2 h) => by
    obtain ⟨ws, hw, e⟩ := pairStep_ok h
    exact ⟨_ :: ws, .cons (h1.mul h2) hw, by simp [e, mul_assoc]⟩

theorem pairStep_length : ∀ l : List CE, 2 ≤ l.length → 1 ≤ (pairStep l).length ∧ (pairStep l).length < l.length
  | [], h => by simp at h
  | [a], h => by simp at h
  | [a, b], _ => by simp [pairStep]
  | [a, b, c], _ => by simp [pairStep]
  | a :: b :: c :: d :: l, _ => by
    have := pairStep_length (c :: d :: l) (by simp)
    simp only [pairStep, List.length_cons] at this ⊢
    omega

theorem pairLoop_ok : ∀ (fuel : Nat) {l : List CE} {zs : List ℂ}, List.Forall₂ (CEv v) l zs → 1 ≤ l.length → l.length ≤ fuel →
    ∃ c, pairLoop fuel l = .ok c ∧ CEv v c zs.prod
  | 0, l, zs, _, h1, h2 => by omega
  | fuel + 1, l, zs, h, h1, h2 => by
    match l, h with
    | [], _ => simp at h1
    | [c], h =>
      cases h with
      | cons h0 ht => cases ht; exact ⟨c, by rw [pairLoop], by simpa using h0⟩
    | a :: b :: l, h =>
      obtain ⟨ws, hw, e⟩ := pairStep_ok h
      have hl := pairStep_length (a :: b :: l) (by simp)
      rw [pairLoop]
      · rw [← e]
        exact pairLoop_ok fuel hw hl.1 (by simp only [List.length_cons] at h2 hl ⊢; omega)
      · simp

theorem pairwiseCmul_ok {l : List CE} {zs : List ℂ} (h : List.Forall₂ (CEv v) l zs) : ∃ c, pairwiseCmul l = .ok c ∧ CEv v c zs.prod := by
  rw [pairwiseCmul]
  cases h with
  | nil => exact ⟨(.dbl 1, .dbl 0), by simp, by simp [CEv]⟩
  | cons h0 ht =>
    rw [if_neg (by simp)]
    exact pairLoop_ok _ (.cons h0 ht) (by simp) le_rfl

/-- The gathered powers and their product. -/
theorem gather_ok : ∀ {as : List (Expr ℝ)} {xs : List ℝ} (_ : List.Forall₂ (fun a x => Expr.eval v a = some x) as xs) {ns : List Int}
    (_ : ∀ n ∈ ns, -128 ≤ n ∧ n ≤ 127) {td : TrigDict} (_ : Inv v td) (_ : ∀ a ∈ as, Has td a),
    ∃ cs td' zs, gather (as.zip ns) td = .ok (cs, td') ∧ List.Forall₂ (CEv v) cs zs ∧ zs.prod = E (comb xs ns) 1 ∧ Inv v td' ∧
      ∀ b, Has td b → Has td' b := by
  intro as xs h
  induction h with
  | nil => intro ns _ td hi _; exact ⟨[], td, [], by simp [gather], .nil, by simp [comb, E], hi, fun b hb => hb⟩
  | @cons a x as xs ha _ ih =>
    intro ns hn td hi hh
    cases ns with
    | nil => exact ⟨[], td, [], by simp [gather], .nil, by simp [comb, E], hi, fun b hb => hb⟩
    | cons n ns =>
      have hE : ∀ c, E (comb (x :: xs) (n :: ns)) c = E x (c * n) * E (comb xs ns) c := by
        intro c
        rw [E, E, E, ← Complex.exp_add]; congr 1
        simp only [comb, List.zip_cons_cons, List.map_cons, List.sum_cons]; push_cast; ring
      have hx : E x (1 * n) = E x n := by rw [one_mul]
      simp only [List.zip_cons_cons, gather]
      by_cases h0 : n = 0
      · rw [if_pos h0]
        obtain ⟨cs, td', zs, e, h1, h2, h3, h4⟩ := ih (ns := ns) (fun m hm => hn m (List.mem_cons_of_mem _ hm)) hi (fun b hb => hh b (by simp [hb]))
        refine ⟨cs, td', zs, e, h1, ?_, h3, h4⟩
        rw [h2, hE, h0, mul_zero, E_zero, one_mul (E _ 1)]
      · rw [if_neg h0]
        obtain ⟨c, td1, e1, hc, hi1, hk1⟩ := ccpow_ok hi ha (hh a (by simp)) (hn n (by simp))
        obtain ⟨cs, td', zs, e, h1, h2, h3, h4⟩ := ih (ns := ns) (fun m hm => hn m (List.mem_cons_of_mem _ hm)) hi1 (fun b hb => hk1 b (hh b (by simp [hb])))
        refine ⟨c :: cs, td', E x n :: zs, by rw [e1]; simp [e], .cons hc h1, ?_, h3, fun b hb => h4 b (hk1 b hb)⟩
        rw [List.prod_cons, h2, hE, hx]

/-! ### Polynomials -/

theorem foldl_horner {x : Expr ℝ} {t : ℝ} (hx : x.eval v = some t) : ∀ {cs : List (Expr ℝ)} {ys : List ℝ},
    List.Forall₂ (fun a y => Expr.eval v a = some y) cs ys → ∀ {r : Expr ℝ} {y : ℝ}, r.eval v = some y →
      (cs.foldl (fun ret c => addE c (mulE ret x)) r).eval v = some (ys.foldl (fun ret c => c + ret * t) y) := by
  intro cs ys h
  induction h with
  | nil => intro r y hr; exact hr
  | cons hc _ ih => intro r y hr; exact ih (ev_add hc (eval_mulE hr hx))

theorem poly_append (cs : List ℝ) (c t : ℝ) : poly (cs ++ [c]) t = poly cs t + c * t ^ cs.length := by
  induction cs with
  | nil => simp [poly]
  | cons d cs ih => simp only [List.cons_append, poly, ih, List.length_cons]; ring

theorem foldl_horner_poly (t : ℝ) : ∀ (cs : List ℝ) (y : ℝ), cs.foldl (fun ret c => c + ret * t) y = poly cs.reverse t + y * t ^ cs.length := by
  intro cs
  induction cs with
  | nil => intro y; simp [poly]
  | cons c cs ih =>
    intro y
    rw [List.foldl_cons, ih, List.reverse_cons, poly_append, List.length_reverse, List.length_cons]; ring

theorem ev_hornerE {cs : List (Expr ℝ)} {ys : List ℝ} (h : List.Forall₂ (fun a y => Expr.eval v a = some y) cs ys) {x : Expr ℝ} {t : ℝ}
    (hx : x.eval v = some t) : (hornerE cs x).eval v = some (poly ys t) := by
  have key : ∀ {cr : List (Expr ℝ)} {yr : List ℝ}, List.Forall₂ (fun a y => Expr.eval v a = some y) cr yr →
      (match cr with
        | [] => Expr.dbl 0
        | c :: cs => cs.foldl (fun ret c => addE c (mulE ret x)) c).eval v = some (poly yr.reverse t) := by
    intro cr yr hr
    cases hr with
    | nil => simp [poly]
    | cons hc ht =>
      simp only
      rw [foldl_horner hx ht hc, foldl_horner_poly, List.reverse_cons, poly_append, List.length_reverse]
  have := key (List.rel_reverse h)
  rw [List.reverse_reverse] at this
  rw [hornerE]; exact this

theorem ev_hornerN (cs : List ℝ) {x : Expr ℝ} {t : ℝ} (hx : x.eval v = some t) : (hornerN cs x).eval v = some (poly cs t) := by
  refine ev_hornerE ?_ hx
  induction cs with
  | nil => exact .nil
  | cons c cs ih => exact .cons (by simp) ih

end

end Heyoka.Theory
