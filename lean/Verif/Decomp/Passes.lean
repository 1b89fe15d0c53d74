import Verif.Decomp.Machine

/-!
# Lemmas on the decomposition and on the elimination of common subexpressions
-/

set_option linter.unusedSectionVars false

namespace Heyoka.Sym

variable {K : Type} [Field K] [LinearOrder K] [Interp K]

/-! ### Decomposition -/

theorem allSome_eval (v : Env K) (es : List (Expr K)) :
    allSome (es.map fun e => e.eval v) = Expr.evalL v es := by
  induction es with
  | nil => simp [allSome]
  | cons e es ih => simp [allSome, ih]

theorem appO_eval (v : Env K) (f : Fn K) (as : List (Expr K)) :
    appO v f (as.map fun e => e.eval v) = (Expr.fn f as).eval v := by
  by_cases h : f ≠ .time ∨ as ≠ []
  · rw [Expr.eval_fn _ _ _ h, ← allSome_eval]
    unfold appO
    split
    · rename_i h1
      simp at h1
      simp [h1] at h
    · rfl
  · push Not at h
    obtain ⟨rfl, rfl⟩ := h
    simp [appO]

/-- The variables of the arguments of a function are the first `nvars` `u` variables. -/
def LeavesOk (nvars : Nat) (as : List (Expr K)) : Prop :=
  ∀ s, .var s ∈ as → ∃ j, j < nvars ∧ s = uname j

/-- What it means for an element to stand for an expression: it has its value under every valuation
satisfying the decomposition. -/
def ValDef (nvars : Nat) (dc : List (Expr K)) (i : Nat) (e : Expr K) : Prop :=
  i < dc.length ∧ ∀ v val, Sat v nvars dc val → val (uname i) = e.eval v

theorem stands_argOk {nvars : Nat} {dc as as' : List (Expr K)} (hn : nvars ≤ dc.length)
    (hst : List.Forall₂ (Stands (ValDef nvars) dc) as' as) (hl : LeavesOk nvars as) :
    ∀ a ∈ as', ArgOk dc.length a := by
  induction hst with
  | nil => intro a ha; cases ha
  | @cons x y xs ys h1 _ ih =>
    intro a ha
    rcases List.mem_cons.1 ha with rfl | ha
    · unfold Stands at h1
      split at h1
      · obtain ⟨i, rfl, hi, -⟩ := h1
        exact ⟨i, hi, rfl⟩
      · rename_i hnf
        subst h1
        cases a with
        | var s =>
          obtain ⟨j, hj, rfl⟩ := hl s List.mem_cons_self
          exact ⟨j, by omega, rfl⟩
        | fn f as => simp [Expr.isFn] at hnf
        | _ => trivial
    · exact ih (fun s hs => hl s (List.mem_cons_of_mem _ hs)) a ha

theorem stands_val {nvars : Nat} {dc as as' : List (Expr K)} {v : Env K} {val : String → Option K}
    (hst : List.Forall₂ (Stands (ValDef nvars) dc) as' as) (hl : LeavesOk nvars as)
    (hs : Sat v nvars dc val) : as'.map (argV v val) = as.map fun e => e.eval v := by
  induction hst with
  | nil => rfl
  | @cons x y xs ys h1 _ ih =>
    rw [List.map_cons, List.map_cons, ih fun s hs => hl s (List.mem_cons_of_mem _ hs)]
    congr 1
    unfold Stands at h1
    split at h1
    · obtain ⟨i, rfl, -, h2⟩ := h1
      exact h2 v val hs
    · rename_i hnf
      subst h1
      cases x with
      | var s =>
        obtain ⟨j, hj, rfl⟩ := hl s List.mem_cons_self
        rw [argV, hs.ins j hj, Expr.eval_var]
      | num n => simp [argV]
      | par n => simp [argV]
      | fn f as => simp [Expr.isFn] at hnf

/-- The decomposition by appending. -/
def appendSpec (P : Fn K → Prop) (nvars : Nat) : DecSpec (fdcAppend (K := K)) where
  Inv := WF P nvars
  Def := ValDef nvars
  good := fun f as => P f ∧ LeavesOk nvars as
  mono := fun h => ⟨by have := h.1; simp; omega, fun v val hs => h.2 v val hs.prefix⟩
  ok := by
    intro dc f as as' hi hg hst
    have hl := hi.len
    refine ⟨dc.length, [.fn f as'], rfl, hi.snoc hg.1 (stands_argOk hl hst hg.2), by simp,
      fun v val hs => ?_⟩
    rw [hs.elem dc.length (.fn f as') (by simp) hl, elemV, ← appO_eval, stands_val hst hg.2 hs.prefix]

/-! ### Elimination of common subexpressions -/

variable [FmtName K]

theorem find_equiv {m : List (Expr K × Nat)} {e : Expr K} {p : Expr K × Nat}
    (h : (m.find? fun p => !p.1.blt e && !e.blt p.1) = some p) : p ∈ m ∧ p.1.beq e = true := by
  refine ⟨List.mem_of_find?_eq_some h, ?_⟩
  have := List.find?_some h
  simp only [Bool.and_eq_true, Bool.not_eq_true', Bool.eq_false_iff, ne_eq, Expr.blt_iff] at this
  rw [Expr.beq_iff]
  rw [Expr.cmp_swap p.1 e] at this
  revert this
  cases p.1.cmp e <;> simp

theorem find_equiv_none {m : List (Expr K × Nat)} {e : Expr K}
    (h : (m.find? fun p => !p.1.blt e && !e.blt p.1) = none) : ∀ p ∈ m, p.1.beq e = false := by
  intro p hp
  have := List.find?_eq_none.1 h p hp
  by_contra hc
  rw [Bool.not_eq_false, Expr.beq_iff] at hc
  apply this
  simp only [Bool.and_eq_true, Bool.not_eq_true', Bool.eq_false_iff, ne_eq, Expr.blt_iff]
  rw [Expr.cmp_swap p.1 e, hc]
  simp

/-- What holds when the elements `pre` have been processed. -/
structure CseInv (P : Fn K → Prop) (nvars : Nat) (pre ret : List (Expr K)) (exMap : List (Expr K × Nat))
    (ren : List (String × String)) : Prop where
  wf : WF P nvars ret
  len : ret.length ≤ pre.length
  fresh : ∀ j, pre.length ≤ j → ren.lookup (uname j) = none
  vars : ∀ j, j < nvars → ren.lookup (uname j) = none
  pre_eq : ret.take nvars = pre.take nvars
  rens : ∀ j, j < pre.length →
    ∃ l, l < ret.length ∧ l ≤ j ∧ renName (fun s => ren.lookup s) (uname j) = uname l
  map : ∀ p ∈ exMap, nvars ≤ p.2 ∧ ret[p.2]? = some p.1
  conv : ∀ k e, nvars ≤ k → ret[k]? = some e → (e, k) ∈ exMap
  dist : ∀ k l e e', nvars ≤ k → k < l → ret[k]? = some e → ret[l]? = some e' → e.beq e' = false
  val : ∀ v val val', Sat v nvars pre val → Sat v nvars ret val' →
    ∀ j, j < pre.length → val' (renName (fun s => ren.lookup s) (uname j)) = val (uname j)

theorem getElem?_snoc {α : Type} {l : List α} {a b : α} {i : Nat} (h : (l ++ [a])[i]? = some b) :
    (i < l.length ∧ l[i]? = some b) ∨ (i = l.length ∧ b = a) := by
  rcases Nat.lt_or_ge i l.length with hlt | hge
  · rw [List.getElem?_append_left hlt] at h
    exact .inl ⟨hlt, h⟩
  · rw [List.getElem?_append_right hge] at h
    cases hk : i - l.length with
    | zero => rw [hk] at h; simp at h; exact .inr ⟨by omega, h.symm⟩
    | succ k => rw [hk] at h; simp at h

theorem renName_cons {m : List (String × String)} {a b s : String} (h : s ≠ a) :
    renName (fun s => ((a, b) :: m).lookup s) s = renName (fun s => m.lookup s) s := by
  simp only [renName, List.lookup_cons]
  have : (s == a) = false := by simpa using h
  rw [this]

theorem renName_cons_self {m : List (String × String)} {a b : String} :
    renName (fun s => ((a, b) :: m).lookup s) a = b := by
  simp [renName]

theorem cseLoop_inv {P : Fn K → Prop} (hP : NameSound P) {nvars : Nat} (es : List (Expr K)) :
    ∀ (pre ret : List (Expr K)) (exMap : List (Expr K × Nat)) (ren : List (String × String)),
      WF P nvars (pre ++ es) → nvars ≤ pre.length → CseInv P nvars pre ret exMap ren →
      ∃ m, CseInv P nvars (pre ++ es) (cseLoop pre.length ret exMap ren es).1 m
        (cseLoop pre.length ret exMap ren es).2 := by
  induction es with
  | nil => intro pre ret exMap ren _ _ h; exact ⟨exMap, by simpa [cseLoop] using h⟩
  | cons e es ih =>
    intro pre ret exMap ren hw hn h
    have hw' : WF P nvars ((pre ++ [e]) ++ es) := by simpa using hw
    obtain ⟨f, args, rfl, hf, ha⟩ := hw.elem pre.length e (by simp) hn
    have hren : ∀ a ∈ args, ArgOk ret.length (a.mapNodes (renameLeaf fun s => ren.lookup s) id) := by
      intro a hm
      refine argOk_rename (ha a hm) fun j hj => ?_
      obtain ⟨l, h1, -, h2⟩ := h.rens j hj
      exact ⟨l, h1, h2⟩
    have hne : ∀ j, j < pre.length → uname j ≠ uname pre.length := fun j hj hc => by
      have := uname_inj hc; omega
    have hfn := rename_fn (fun s => ren.lookup s) f args
    -- the facts common to the two cases
    have common : ∀ (ret' : List (Expr K)) (m' : List (Expr K × Nat)) (k : Nat),
        k < ret'.length → k ≤ pre.length → WF P nvars ret' → ret <+: ret' →
        ret'.length ≤ pre.length + 1 → ret'.take nvars = ret.take nvars →
        (∀ p ∈ m', nvars ≤ p.2 ∧ ret'[p.2]? = some p.1) →
        (∀ k e, nvars ≤ k → ret'[k]? = some e → (e, k) ∈ m') →
        (∀ k l e e', nvars ≤ k → k < l → ret'[k]? = some e → ret'[l]? = some e' → e.beq e' = false) →
        (∀ v val', Sat v nvars ret' val' →
          val' (uname k) = elemV v val' (renameIn ren (.fn f args))) →
        CseInv P nvars (pre ++ [.fn f args]) ret' m' ((uname pre.length, uname k) :: ren) := by
      intro ret' m' k hk hkp hwf hpre hlen htake hm hconv hdist hval
      refine ⟨hwf, by simpa using hlen, ?_, ?_, ?_, ?_, hm, hconv, hdist, ?_⟩
      · intro j hj
        simp only [List.length_append, List.length_cons, List.length_nil] at hj
        rw [List.lookup_cons]
        have : (uname j == uname pre.length) = false := by
          simp only [beq_eq_false_iff_ne, ne_eq, uname_eq_iff]; omega
        rw [this]
        exact h.fresh j (by omega)
      · intro j hj
        rw [List.lookup_cons]
        have : (uname j == uname pre.length) = false := by
          simp only [beq_eq_false_iff_ne, ne_eq, uname_eq_iff]; omega
        rw [this]
        exact h.vars j hj
      · rw [htake, h.pre_eq, List.take_append_of_le_length hn]
      · intro j hj
        simp only [List.length_append, List.length_cons, List.length_nil] at hj
        rcases Nat.lt_or_ge j pre.length with hlt | hge
        · obtain ⟨l, h1, h2, h3⟩ := h.rens j hlt
          exact ⟨l, lt_of_lt_of_le h1 hpre.length_le, h2, by rw [renName_cons (hne j hlt), h3]⟩
        · obtain rfl : j = pre.length := by omega
          exact ⟨k, hk, hkp, renName_cons_self⟩
      · intro v val val' hs hs' j hj
        obtain ⟨t, rfl⟩ := hpre
        simp only [List.length_append, List.length_cons, List.length_nil] at hj
        have hold := h.val v val val' hs.prefix hs'.prefix
        rcases Nat.lt_or_ge j pre.length with hlt | hge
        · rw [renName_cons (hne j hlt)]
          exact hold j hlt
        · obtain rfl : j = pre.length := by omega
          rw [renName_cons_self, hval v val' hs', hs.elem pre.length (.fn f args) (by simp) hn]
          exact elemV_rename ha hold
    rw [cseLoop]
    cases hfind : exMap.find? fun p => !p.1.blt (renameIn ren (.fn f args)) &&
        !(renameIn ren (.fn f args)).blt p.1 with
    | some p =>
      obtain ⟨hp, hbeq⟩ := find_equiv hfind
      obtain ⟨hp1, hp2⟩ := h.map p hp
      have hlt : p.2 < ret.length := by
        by_contra hc
        rw [List.getElem?_eq_none (by omega)] at hp2
        cases hp2
      have := ih (pre ++ [.fn f args]) ret exMap ((uname pre.length, uname p.2) :: ren) hw'
        (by simp; omega) (common ret exMap p.2 hlt (by have := h.len; omega) h.wf (List.prefix_refl _)
          (by have := h.len; omega) rfl h.map h.conv h.dist ?_)
      · simpa [hfind] using this
      · intro v val' hs'
        obtain ⟨g, bs, he, hg, hb⟩ := h.wf.elem p.2 p.1 hp2 hp1
        rw [hs'.elem p.2 p.1 hp2 hp1, he]
        rw [he, renameIn, hfn] at hbeq
        rw [renameIn, hfn]
        exact elemV_of_beq hP hb hg hf hbeq
    | none =>
      have hnone := find_equiv_none hfind
      have hwf : WF P nvars (ret ++ [renameIn ren (.fn f args)]) := by
        rw [renameIn, hfn]
        refine h.wf.snoc hf fun a' ha' => ?_
        obtain ⟨a, hm, rfl⟩ := List.mem_map.1 ha'
        exact hren a hm
      have := ih (pre ++ [.fn f args]) (ret ++ [renameIn ren (.fn f args)])
        ((renameIn ren (.fn f args), ret.length) :: exMap) ((uname pre.length, uname ret.length) :: ren)
        hw' (by simp; omega)
        (common _ _ ret.length (by simp) h.len hwf (List.prefix_append _ _)
          (by simp; exact h.len) (List.take_append_of_le_length h.wf.len) ?_ ?_ ?_ ?_)
      · simpa [hfind] using this
      · intro p hp
        rcases List.mem_cons.1 hp with rfl | hp
        · exact ⟨h.wf.len, by simp⟩
        · obtain ⟨h1, h2⟩ := h.map p hp
          refine ⟨h1, ?_⟩
          rw [List.getElem?_append_left]
          · exact h2
          · by_contra hc
            rw [List.getElem?_eq_none (by omega)] at h2
            cases h2
      · intro k e' hk he'
        rcases getElem?_snoc he' with ⟨-, h1⟩ | ⟨rfl, rfl⟩
        · exact List.mem_cons_of_mem _ (h.conv k e' hk h1)
        · exact List.mem_cons_self
      · intro k l e1 e2 hk hkl h1 h2
        rcases getElem?_snoc h2 with ⟨hl, h2⟩ | ⟨rfl, rfl⟩
        · rcases getElem?_snoc h1 with ⟨-, h1⟩ | ⟨rfl, rfl⟩
          · exact h.dist k l e1 e2 hk hkl h1 h2
          · omega
        · rcases getElem?_snoc h1 with ⟨-, h1⟩ | ⟨rfl, rfl⟩
          · exact hnone (e1, k) (h.conv k e1 hk h1)
          · omega
      · intro v val' hs'
        exact hs'.elem ret.length _ (by simp) h.wf.len

theorem cse_ok {P : Fn K → Prop} (hP : NameSound P) {nvars nouts : Nat} {dc : List (Expr K)}
    (h : DcOk P nvars nouts dc) :
    DcOk P nvars nouts (cse nvars nouts dc) ∧ (cse nvars nouts dc).length ≤ dc.length ∧
    (cse nvars nouts dc).take nvars = dc.take nvars ∧
    (∀ k l e e', nvars ≤ k → k < l → l < (cse nvars nouts dc).length - nouts →
      (cse nvars nouts dc)[k]? = some e → (cse nvars nouts dc)[l]? = some e' → e.beq e' = false) ∧
    ∀ (v : Env K) (val val' : String → Option K), Sat v nvars (dc.take (dc.length - nouts)) val →
      Sat v nvars ((cse nvars nouts dc).take ((cse nvars nouts dc).length - nouts)) val' →
      (dcOuts nouts (cse nvars nouts dc)).map (argV v val') = (dcOuts nouts dc).map (argV v val) := by
  have hlen := h.len
  have hpl : (dc.take nvars).length = nvars := by rw [List.length_take]; omega
  have hpre : dc.take nvars ++ dcMid nvars nouts dc = dc.take (dc.length - nouts) := by
    rw [dcMid, show dc.length - nouts = nvars + (dc.length - nouts - nvars) from by omega, List.take_add,
      show nvars + (dc.length - nouts - nvars) - nvars = dc.length - nouts - nvars from by omega]
  have hinit : CseInv P nvars (dc.take nvars) (dc.take nvars) [] [] := by
    have hge : ∀ (i : Nat) (e : Expr K), (dc.take nvars)[i]? = some e → nvars ≤ i → False := by
      intro i e he hi
      rw [List.getElem?_eq_none (by omega)] at he
      cases he
    refine ⟨⟨by omega, fun i e he hi => (hge i e he hi).elim⟩, le_refl _, by simp, by simp, rfl, ?_, by simp,
      fun k e hk he => (hge k e he hk).elim, fun k l e e' hk _ he => (hge k e he hk).elim, ?_⟩
    · intro j hj
      exact ⟨j, hj, le_refl _, by simp [renName]⟩
    · intro v val val' hs hs' j hj
      rw [hpl] at hj
      simp only [renName, List.lookup_nil, Option.getD_none]
      rw [hs'.ins j hj, hs.ins j hj]
  obtain ⟨m, hc⟩ := cseLoop_inv hP (dcMid nvars nouts dc) (dc.take nvars) (dc.take nvars) [] []
    (by rw [hpre]; exact h.wf) (by omega) hinit
  rw [hpl, hpre] at hc
  have hcse : cse nvars nouts dc = (cseLoop nvars (dc.take nvars) [] [] (dcMid nvars nouts dc)).1 ++
    (dcOuts nouts dc).map (renameIn (cseLoop nvars (dc.take nvars) [] [] (dcMid nvars nouts dc)).2) := rfl
  rw [hcse]
  generalize cseLoop nvars (dc.take nvars) [] [] (dcMid nvars nouts dc) = r at hc ⊢
  obtain ⟨ret, ren⟩ := r
  simp only at hc ⊢
  have hol : (dcOuts nouts dc).length = nouts := by rw [dcOuts, List.length_drop]; omega
  have hl' : (ret ++ (dcOuts nouts dc).map (renameIn ren)).length - nouts = ret.length := by simp [hol]
  have hrl : ret.length ≤ dc.length - nouts := by
    have := hc.len; rw [List.length_take] at this; omega
  have hnr := hc.wf.len
  have htl : (dc.take (dc.length - nouts)).length = dc.length - nouts := by simp
  have houts : dcOuts nouts (ret ++ (dcOuts nouts dc).map (renameIn ren)) =
      (dcOuts nouts dc).map (renameIn ren) := by
    rw [dcOuts, hl', List.drop_left']
    rfl
  refine ⟨⟨by simp [hol]; omega, ?_, ?_⟩, by simp [hol]; omega, ?_, ?_, ?_⟩
  · rw [hl', List.take_left' rfl]; exact hc.wf
  · intro a ha
    rw [houts] at ha
    rw [hl']
    obtain ⟨b, hb, rfl⟩ := List.mem_map.1 ha
    refine argOk_rename (h.outs b hb) fun j hj => ?_
    obtain ⟨l, h1, -, h2⟩ := hc.rens j (by omega)
    exact ⟨l, h1, h2⟩
  · rw [List.take_append_of_le_length hnr, hc.pre_eq, List.take_take, min_eq_left (by omega)]
  · intro k l e e' hk hkl hl he he'
    rw [hl'] at hl
    rw [List.getElem?_append_left (by omega)] at he he'
    exact hc.dist k l e e' hk hkl he he'
  · intro v val val' hs hs'
    rw [hl', List.take_left' rfl] at hs'
    rw [houts, List.map_map]
    refine List.map_congr_left fun a ha => ?_
    refine argV_rename (h.outs a ha) fun j hj => ?_
    exact hc.val v val val' hs hs' j (by omega)

end Heyoka.Sym
