import Verif.AD.Step
import Verif.AD.Keys

/-!
# The loops over the arguments and the outputs
-/

set_option linter.unusedSectionVars false

namespace Heyoka.AD

open Heyoka.Sym Heyoka.Dtens

variable [DFunc]

theorem forall₂_of_getElem {α β : Type} {R : α → β → Prop} {as : List α} : ∀ {bs : List β}, as.length = bs.length →
    (∀ (k : Nat) (a : α) (b : β), as[k]? = some a → bs[k]? = some b → R a b) → List.Forall₂ R as bs := by
  induction as with
  | nil => intro bs h _; cases bs with
    | nil => exact .nil
    | cons b bs => simp at h
  | cons a as ih =>
    intro bs h hR
    cases bs with
    | nil => simp at h
    | cons b bs =>
      exact .cons (hR 0 a b rfl rfl) (ih (by simpa using h) fun k x y hx hy => hR (k + 1) x y (by simpa using hx) (by simpa using hy))

theorem forall₂_getElem {α β : Type} {R : α → β → Prop} {as : List α} {bs : List β} (h : List.Forall₂ R as bs) :
    ∀ {k : Nat} {a : α}, as[k]? = some a → ∃ b, bs[k]? = some b ∧ R a b := by
  induction h with
  | nil => intro k a h; simp at h
  | cons hab _ ih =>
    intro k a hk
    cases k with
    | zero => simp at hk; subst hk; exact ⟨_, rfl, hab⟩
    | succ k => simpa using ih (by simpa using hk)

/-! ### Substitution and the sets of symbols -/

theorem subsAll_goodS {K : Type} {S : Fn K → Nat → Prop} {Q : String → Prop} {R : Nat → Prop} {Y : List (Expr K)}
    {n : Nat} (hY : ∀ (j : Nat), j < n → ∃ e, Y[j]? = some e ∧ GoodS S Q R e) {e : Expr K}
    (h : GoodS S (fun s => ∃ j, j < n ∧ s = uname j) (fun _ => False) e) : GoodS S Q R (subsAll Y e) := by
  induction e using Expr.ind with
  | num m => trivial
  | par i => exact h.elim
  | var s =>
    obtain ⟨j, hj, rfl⟩ := h
    obtain ⟨e, he, hg⟩ := hY j hj
    rw [subsAll_uname he]
    exact hg
  | fn f args ih =>
    rw [goodS_fn] at h
    rw [subsAll_fn, goodS_fn]
    refine ⟨by simpa using h.1, fun a ha => ?_⟩
    obtain ⟨b, hb, rfl⟩ := List.mem_map.1 ha
    exact ih b hb (h.2 b hb)

/-! ### The setting of the loops -/

variable [FmtName ℝ]

/-- The decomposition of the derivatives of one order. -/
structure Ctx (S : Fn ℝ → Nat → Prop) (ins : List DVar) (c os : List (Expr ℝ)) (rs : List (Row ℝ))
    (prev : List (SIdx × Expr ℝ)) : Prop extends Setting S ins c os where
  rows : adjRows ins.length os.length (c ++ os) = .ok rs
  comp : List.Forall₂ (OutNrm (ins.map ofDVar) c) os (prev.map fun p => prep ins p.2)
  sub : ∀ p ∈ prev, subsAll (ins.map ofDVar) (prep ins p.2) = split2 p.2
  leaves : ∀ p ∈ prev, ∀ x, p.2.occurs x = true → x ∈ ins
  elems : ∀ T : Expr ℝ → Prop, ArgClosed T → (∀ p ∈ prev, T (split2 p.2)) → ∀ i, ins.length ≤ i → i < c.length →
    ∃ e e', (expand ins.length c)[i]? = some e ∧ T e' ∧ nrm e = nrm e'

variable {S : Fn ℝ → Nat → Prop} {ins : List DVar} {c outs : List (Expr ℝ)} {rows : List (Row ℝ)}
variable {prev : List (SIdx × Expr ℝ)}

/-- The expressions built by the passes. -/
abbrev G0 (S : Fn ℝ → Nat → Prop) (c : List (Expr ℝ)) : Expr ℝ → Prop :=
  GoodS S (fun s => ∃ j, j < c.length ∧ s = uname j) fun _ => False

/-- The expression is in every set containing the partial derivatives of the elements and everything the passes build from
its elements. -/
def Gen (rows : List (Row ℝ)) (e : Expr ℝ) : Prop :=
  ∀ G : Expr ℝ → Prop, Closed rows G → (∀ k, ∀ l ∈ dep rows k, ∀ a, adjFind rows k l = some a → G a) → G e

theorem gen_closed (rows : List (Row ℝ)) : Closed rows (Gen rows) :=
  ⟨fun _ _ hG _ => hG.dbl _, fun es hes G hG ha => hG.sum es fun e he => hes e he G hG ha,
    fun _ _ h1 h2 G hG ha => hG.mul _ _ (h1 G hG ha) (h2 G hG ha)⟩

theorem gen_adj (rows : List (Row ℝ)) : ∀ k, ∀ l ∈ dep rows k, ∀ a, adjFind rows k l = some a → Gen rows a :=
  fun k l hl a ha _ _ hG => hG k l hl a ha

/-- `q` is the derivative of `p` with respect to the argument `x` with the index `j`, in terms of the
elements. -/
def News (rows : List (Row ℝ)) (n : Nat) (c outs : List (Expr ℝ)) (p : SIdx × Expr ℝ) (x : DVar) (j : Nat)
    (q : SIdx × Expr ℝ) : Prop :=
  q.1 = (p.1.1, addIdx j p.1.2) ∧ Gen rows q.2 ∧ IsDeriv x p.2 (subsAll (full n c outs) q.2)

theorem Ctx.len (h : Ctx S ins c outs rows prev) : outs.length = prev.length := by
  simpa using h.comp.length_eq

theorem Setting.full_good (h : Setting S ins c outs) {j : Nat} (hj : j < c.length) :
    ∃ e, (full ins.length c outs)[j]? = some e ∧ GoodS S (fun _ => True) (fun _ => True) e := by
  induction j using Nat.strong_induction_on with
  | _ j ih =>
    rcases Nat.lt_or_ge j ins.length with hlt | hge
    · refine ⟨ofDVar ins[j], by rw [h.full_input hlt, List.getElem?_eq_getElem hlt]; rfl, ?_⟩
      cases ins[j] <;> trivial
    · obtain ⟨f, args, he, hf, ha⟩ := h.dcw.elem j c[j] (List.getElem?_eq_getElem hj) hge
      refine ⟨_, h.full_mid (f := f) (args := args) (by rw [List.getElem?_eq_getElem hj, he]) hge, ?_⟩
      rw [goodS_fn]
      refine ⟨by simpa using hf, fun b hb => ?_⟩
      obtain ⟨a, hm, rfl⟩ := List.mem_map.1 hb
      rcases h.leaf (outs := outs) hj (ha a hm) with ⟨m, -, hs⟩ | ⟨l, e, hl, -, hYl, hs, -⟩
      · rw [hs]; trivial
      · obtain ⟨e', he', hg⟩ := ih l hl (by omega)
        rw [hYl] at he'
        cases he'
        rw [hs]
        exact hg

theorem Setting.subs_good (h : Setting S ins c outs) {d : Expr ℝ} (hd : G0 S c d) :
    GoodS S (fun _ => True) (fun _ => True) (subsAll (full ins.length c outs) d) :=
  subsAll_goodS (fun _ hj => h.full_good hj) hd

theorem Ctx.adj_G0 (h : Ctx S ins c outs rows prev) :
    ∀ k, ∀ l ∈ dep rows k, ∀ a, adjFind rows k l = some a → G0 S c a := by
  intro k l hl a ha
  refine h.adj_good h.rows (fun m hm => ?_) hl ha
  have hk := (h.dag h.rows).lt_N hm
  rcases h.cases h.rows k hk with ⟨-, y, -, -, hd⟩ | ⟨-, f, args, gs, hck, -, hleaf, -, hrow⟩ | ⟨-, ⟨m', -, hd⟩ | ⟨l', hl', hd, -, -⟩⟩
  · rw [hd] at hm; cases hm
  · have := (h.dag h.rows).lt k m hm
    have := (List.getElem?_eq_some_iff.1 hck).1
    exact ⟨m, by omega, rfl⟩
  · rw [hd] at hm; cases hm
  · rw [hd, List.mem_singleton] at hm
    subst hm
    exact ⟨m, hl', rfl⟩

theorem isDVar_ofDVar {x y : DVar} : isDVar x (ofDVar y : Expr ℝ) = true ↔ y = x := by
  cases y <;> simp [isDVar, ofDVar, toDVar]

theorem Setting.findInput_some (h : Setting S ins c outs) {x : DVar} {i : Nat}
    (hi : findInput ins.length (c ++ outs) x = some i) : ins[i]? = some x := by
  obtain ⟨d, hd⟩ := h.pre
  unfold findInput at hi
  rw [hd, List.append_assoc, List.take_append_of_le_length (by simp), List.take_of_length_le (by simp),
    List.findIdx?_eq_some_iff_getElem] at hi
  obtain ⟨hlt, h1, -⟩ := hi
  rw [List.length_map] at hlt
  rw [List.getElem_map, isDVar_ofDVar] at h1
  rw [List.getElem?_eq_getElem hlt, h1]

theorem Setting.findInput_none (h : Setting S ins c outs) {x : DVar}
    (hi : findInput ins.length (c ++ outs) x = none) : x ∉ ins := by
  obtain ⟨d, hd⟩ := h.pre
  unfold findInput at hi
  rw [hd, List.append_assoc, List.take_append_of_le_length (by simp), List.take_of_length_le (by simp),
    List.findIdx?_eq_none_iff] at hi
  intro hx
  have := hi (ofDVar x) (List.mem_map_of_mem hx)
  rw [Bool.eq_false_iff] at this
  exact this (isDVar_ofDVar.2 rfl)

/-- The derivative of a component with respect to a variable that is not an input. -/
theorem Ctx.news_zero (h : Ctx S ins c outs rows prev) {x : DVar} (hx : x ∉ ins) {p : SIdx × Expr ℝ} (hp : p ∈ prev) (j : Nat) :
    News rows ins.length c outs p x j ((p.1.1, addIdx j p.1.2), .dbl 0) := by
  refine ⟨rfl, (gen_closed rows).dbl 0, ?_⟩
  have : (subsAll (full ins.length c outs) (.dbl 0)) = .dbl 0 := rfl
  rw [this]
  refine isDeriv_zero ?_
  by_contra hc
  exact hx (h.leaves p hp x (by simpa using hc))

/-- The derivatives of the outputs with respect to an input, forward mode. -/
theorem Ctx.news_fwd (h : Ctx S ins c outs rows prev) {x : DVar} {input : Nat} (hin : ins[input]? = some x) {fuel : Nat}
    {diffs diffs' : List (Expr ℝ)} (hl : diffs.length = c.length + outs.length) (hG : ∀ e ∈ diffs, Gen rows e)
    (hf : fwdArg fuel rows prev.length input diffs = some (.ok diffs')) (j : Nat) :
    diffs'.length = c.length + outs.length ∧ (∀ e ∈ diffs', Gen rows e) ∧
    List.Forall₂ (fun p q => News rows ins.length c outs p x j q) prev
      ((nextKeys j (prev.map (·.1))).zip (diffs'.drop (diffs'.length - (prev.map (·.1)).length))) := by
  have hlt : input < ins.length := (List.getElem?_eq_some_iff.1 hin).1
  have hlen := h.dcw.len
  have hout := h.len
  obtain ⟨d', seen, he, hl', -, -, -, hgood⟩ := (fwdArg_spec (h.dag h.rows) hl (by omega)).2 _ hf
  cases he
  have hG' := hgood _ (gen_closed rows) (gen_adj rows) hG
  refine ⟨hl', hG', forall₂_of_getElem ?_ fun k p q hp hq => ?_⟩
  · simp [nextKeys, hl']; omega
  · rw [List.length_map, hl', ← hout, Nat.add_sub_cancel] at hq
    rw [List.getElem?_zip_eq_some] at hq
    obtain ⟨hq1, hq2⟩ := hq
    rw [nextKeys, List.map_map, List.getElem?_map, hp] at hq1
    rw [List.getElem?_drop] at hq2
    have hk : k < prev.length := (List.getElem?_eq_some_iff.1 hp).1
    refine ⟨?_, hG' _ (List.mem_of_getElem? hq2), ?_⟩
    · simpa using hq1.symm
    · have ho : outs[k]? = some outs[k] := List.getElem?_eq_getElem (by omega)
      obtain ⟨e, he, hnrm⟩ := forall₂_getElem h.comp ho
      rw [List.getElem?_map, hp] at he
      cases he
      refine isDeriv_of (S := S) ho hnrm (h.sub p (List.mem_of_getElem? hp)) (fun v info hinfo hsm => ?_)
        fun v info hinfo hsm => ?_
      · obtain ⟨e, he, hge, hev⟩ := (h.facts h.rows hinfo hin).forward hl (by omega) (by omega) hf
          (k := c.length + k) (by omega) (by omega) hsm
        rw [hq2] at he
        cases he
        exact ⟨hge, hev⟩
      · obtain ⟨e, he, hge, hev⟩ := (h.regFacts h.rows hinfo hin).forward hl (by omega) (by omega) hf
          (k := c.length + k) (by omega) (by omega) hsm
        rw [hq2] at he
        cases he
        exact hge

theorem fwdLoop_spec (h : Ctx S ins c outs rows prev) {fuel : Nat} {first : Bool} (xs : List DVar) :
    ∀ (j : Nat) (diffs : List (Expr ℝ)) (acc : List (SIdx × Expr ℝ)),
    diffs.length = c.length + outs.length → (∀ e ∈ diffs, Gen rows e) →
    (c.length + outs.length ≤ fuel → ∃ acc', fwdLoop fuel (c ++ outs) rows ins.length (prev.map (·.1)) first j xs diffs acc =
      some (.ok acc')) ∧
    ∀ r, fwdLoop fuel (c ++ outs) rows ins.length (prev.map (·.1)) first j xs diffs acc = some r →
      ∃ NS, r = .ok (NS.foldl (addDiffs first) acc) ∧
        List.Forall₂ (fun y ns => List.Forall₂ (fun p q => News rows ins.length c outs p y.1 y.2 q) prev ns) (xs.zipIdx j) NS := by
  induction xs with
  | nil =>
    intro j diffs acc _ _
    refine ⟨fun _ => ⟨acc, rfl⟩, fun r hr => ?_⟩
    rw [fwdLoop] at hr
    cases hr
    exact ⟨[], rfl, .nil⟩
  | cons x xs ih =>
    intro j diffs acc hl hG
    rw [List.zipIdx_cons]
    cases hfi : findInput ins.length (c ++ outs) x with
    | none =>
      have hx := h.findInput_none hfi
      obtain ⟨h1, h2⟩ := ih (j + 1) diffs (addDiffs first acc ((nextKeys j (prev.map (·.1))).map fun k => (k, .dbl 0))) hl hG
      have hstep : fwdLoop fuel (c ++ outs) rows ins.length (prev.map (·.1)) first j (x :: xs) diffs acc =
          fwdLoop fuel (c ++ outs) rows ins.length (prev.map (·.1)) first (j + 1) xs diffs
            (addDiffs first acc ((nextKeys j (prev.map (·.1))).map fun k => (k, .dbl 0))) := by
        rw [fwdLoop]; simp only [hfi]
      rw [hstep]
      refine ⟨h1, fun r hr => ?_⟩
      obtain ⟨NS, rfl, hNS⟩ := h2 r hr
      refine ⟨_ :: NS, rfl, .cons ?_ hNS⟩
      refine forall₂_of_getElem (by simp [nextKeys]) fun k p q hp hq => ?_
      rw [nextKeys, List.map_map, List.map_map, List.getElem?_map, hp] at hq
      cases hq
      exact h.news_zero hx (List.mem_of_getElem? hp) j
    | some input =>
      have hin := h.findInput_some hfi
      have hspec := fwdArg_spec (h.dag h.rows) (fuel := fuel) (nouts := (prev.map (·.1)).length) (input := input) hl
        (by have := h.len; simp; omega)
      cases hfa : fwdArg fuel rows (prev.map (·.1)).length input diffs with
      | none =>
        refine ⟨fun hfu => ?_, fun r hr => ?_⟩
        · obtain ⟨d, hd⟩ := hspec.1 hfu
          rw [hfa] at hd; cases hd
        · rw [fwdLoop] at hr
          simp only [hfi, hfa] at hr
          cases hr
      | some res =>
        obtain ⟨diffs', seen, rfl, -⟩ := hspec.2 _ hfa
        have hfa' := hfa
        rw [List.length_map] at hfa'
        obtain ⟨hl', hG', hnews⟩ := h.news_fwd hin hl hG hfa' j
        obtain ⟨h1, h2⟩ := ih (j + 1) diffs' (addDiffs first acc
            ((nextKeys j (prev.map (·.1))).zip (diffs'.drop (diffs'.length - (prev.map (·.1)).length)))) hl' hG'
        have hstep : fwdLoop fuel (c ++ outs) rows ins.length (prev.map (·.1)) first j (x :: xs) diffs acc =
            fwdLoop fuel (c ++ outs) rows ins.length (prev.map (·.1)) first (j + 1) xs diffs' (addDiffs first acc
            ((nextKeys j (prev.map (·.1))).zip (diffs'.drop (diffs'.length - (prev.map (·.1)).length)))) := by
          rw [fwdLoop]; simp only [hfi, hfa]
        rw [hstep]
        refine ⟨h1, fun r hr => ?_⟩
        obtain ⟨NS, rfl, hNS⟩ := h2 r hr
        exact ⟨_ :: NS, rfl, .cons hnews hNS⟩

/-- The derivatives of an output with respect to the arguments, reverse mode. -/
theorem Ctx.news_rev (h : Ctx S ins c outs rows prev) {fuel k : Nat} {p : SIdx × Expr ℝ} (hp : prev[k]? = some p)
    (h32 : c.length + k < 2 ^ 32) {diffs diffs' : List (Expr ℝ)} (hl : diffs.length = c.length + outs.length)
    (hG : ∀ e ∈ diffs, Gen rows e) (hf : revOut fuel rows ins.length (c.length + k) diffs = some (.ok diffs'))
    (args : List DVar) :
    diffs'.length = c.length + outs.length ∧ (∀ e ∈ diffs', Gen rows e) ∧
    List.Forall₂ (fun (y : DVar × Nat) q => News rows ins.length c outs p y.1 y.2 q) args.zipIdx
      (args.zipIdx.map fun y => ((p.1.1, addIdx y.2 p.1.2), revGet ins.length (c ++ outs) diffs' y.1)) := by
  have hlen := h.dcw.len
  have hout := h.len
  have hk : k < prev.length := (List.getElem?_eq_some_iff.1 hp).1
  obtain ⟨d', seen, he, hl', -, -, -, hgood⟩ := (revOut_spec (h.dag h.rows) hl (by omega) h32).2 _ hf
  cases he
  have hG' := hgood _ (gen_closed rows) (gen_adj rows) hG
  refine ⟨hl', hG', forall₂_of_getElem (by simp) fun i y q hy hq => ?_⟩
  rw [List.getElem?_map, hy] at hq
  cases hq
  have hget : revGet ins.length (c ++ outs) diffs' y.1 = ((findInput ins.length (c ++ outs) y.1).bind fun i => diffs'[i]?).getD (.dbl 0) := by
    unfold revGet
    cases findInput ins.length (c ++ outs) y.1 <;> rfl
  dsimp only
  rw [hget]
  cases hfi : findInput ins.length (c ++ outs) y.1 with
  | none => exact h.news_zero (h.findInput_none hfi) (List.mem_of_getElem? hp) y.2
  | some input =>
    have hin := h.findInput_some hfi
    have hlt : input < ins.length := (List.getElem?_eq_some_iff.1 hin).1
    have hd : diffs'[input]? = some diffs'[input] := List.getElem?_eq_getElem (by omega)
    simp only [Option.bind_some, hd, Option.getD_some]
    refine ⟨rfl, hG' _ (List.getElem_mem _), ?_⟩
    have ho : outs[k]? = some outs[k] := List.getElem?_eq_getElem (by omega)
    obtain ⟨e, he, hnrm⟩ := forall₂_getElem h.comp ho
    rw [List.getElem?_map, hp] at he
    cases he
    refine isDeriv_of (S := S) ho hnrm (h.sub p (List.mem_of_getElem? hp)) (fun v info hinfo hsm => ?_)
      fun v info hinfo hsm => ?_
    · obtain ⟨e, he, hge, hev⟩ := (h.facts h.rows hinfo hin).reverse hl (by omega) hlt h32 (by omega) hf hsm
      rw [hd] at he
      cases he
      exact ⟨hge, hev⟩
    · obtain ⟨e, he, hge, hev⟩ := (h.regFacts h.rows hinfo hin).reverse hl (by omega) hlt h32 (by omega) hf hsm
      rw [hd] at he
      cases he
      exact hge

theorem revLoop_spec (h : Ctx S ins c outs rows prev) {fuel : Nat} {first : Bool} {args : List DVar}
    (ps : List (SIdx × Expr ℝ)) :
    ∀ (i : Nat) (diffs : List (Expr ℝ)) (acc : List (SIdx × Expr ℝ)), prev.drop i = ps →
    diffs.length = c.length + outs.length → (∀ e ∈ diffs, Gen rows e) →
    (c.length + outs.length ≤ fuel → c.length + outs.length ≤ 2 ^ 32 → ∃ acc', revLoop fuel (c ++ outs) rows ins.length
      prev.length args first i (ps.map (·.1)) diffs acc = some (.ok acc')) ∧
    ∀ acc', revLoop fuel (c ++ outs) rows ins.length prev.length args first i (ps.map (·.1)) diffs acc = some (.ok acc') →
      ∃ NS, acc' = NS.foldl (addDiffs first) acc ∧
        List.Forall₂ (fun p ns => List.Forall₂ (fun (y : DVar × Nat) q => News rows ins.length c outs p y.1 y.2 q) args.zipIdx ns) ps NS := by
  induction ps with
  | nil =>
    intro i diffs acc _ _ _
    refine ⟨fun _ _ => ⟨acc, rfl⟩, fun r hr => ?_⟩
    rw [List.map_nil, revLoop] at hr
    cases hr
    exact ⟨[], rfl, .nil⟩
  | cons p ps ih =>
    intro i diffs acc hdrop hl hG
    have hp : prev[i]? = some p := by
      have := congrArg (fun l => l[0]?) hdrop
      simpa using this
    have hi : i < prev.length := (List.getElem?_eq_some_iff.1 hp).1
    have hdrop' : prev.drop (i + 1) = ps := by
      rw [← List.tail_drop, hdrop]
      rfl
    have hout := h.len
    have hlen := h.dcw.len
    have hidx : (c ++ outs).length - prev.length + i = c.length + i := by simp; omega
    by_cases h32 : c.length + i < 2 ^ 32
    · have hspec := revOut_spec (h.dag h.rows) (fuel := fuel) (nvars := ins.length) (out := c.length + i) hl (by omega) h32
      cases hfa : revOut fuel rows ins.length (c.length + i) diffs with
      | none =>
        refine ⟨fun hfu => ?_, fun r hr => ?_⟩
        · obtain ⟨d, hd⟩ := hspec.1 hfu
          rw [hfa] at hd; cases hd
        · rw [List.map_cons, revLoop, hidx] at hr
          simp only [hfa] at hr
          cases hr
      | some res =>
        obtain ⟨diffs', seen, rfl, -⟩ := hspec.2 _ hfa
        obtain ⟨hl', hG', hnews⟩ := h.news_rev hp h32 hl hG hfa args
        obtain ⟨h1, h2⟩ := ih (i + 1) diffs' (addDiffs first acc
          (args.zipIdx.map fun y => ((p.1.1, addIdx y.2 p.1.2), revGet ins.length (c ++ outs) diffs' y.1))) hdrop' hl' hG'
        have hstep : revLoop fuel (c ++ outs) rows ins.length prev.length args first i ((p :: ps).map (·.1)) diffs acc =
            revLoop fuel (c ++ outs) rows ins.length prev.length args first (i + 1) (ps.map (·.1)) diffs' (addDiffs first acc
              (args.zipIdx.map fun y => ((p.1.1, addIdx y.2 p.1.2), revGet ins.length (c ++ outs) diffs' y.1))) := by
          rw [List.map_cons, revLoop, hidx]; simp only [hfa]
        rw [hstep]
        refine ⟨h1, fun r hr => ?_⟩
        obtain ⟨NS, rfl, hNS⟩ := h2 r hr
        exact ⟨_ :: NS, rfl, .cons hnews hNS⟩
    · refine ⟨fun _ _ => by omega, fun r hr => ?_⟩
      rw [List.map_cons, revLoop, hidx, revOut, if_pos (by omega)] at hr
      cases hr

end Heyoka.AD
