import Verif.Taylor.RefJet
import Verif.Compact.Kernel
import Verif.Compact.Names

/-!
# The code generated in compact mode for a Taylor decomposition

The calls of a segment compute the elements of the segment, each one exactly once, with the recurrences of the
elements, although the functions are shared.
-/

set_option linter.unusedSectionVars false
set_option linter.unusedSimpArgs false
set_option linter.unusedVariables false

namespace Heyoka.Taylor

open Heyoka.Sym

variable {K : Type}

section
variable [Field K] [LinearOrder K] [FloorRing K] [FmtName K]

/-- What the names of the recurrences must satisfy: they contain no separator and determine the recurrences. -/
structure CNameSound (L : Fn K → Prop) : Prop where
  dot : ∀ f es, TShape L f es → '.' ∉ (cfun f es).name
  inj : ∀ f es g es', TShape L f es → TShape L g es' → (cfun f es).name = (cfun g es').name →
    cfun f es = cfun g es' ∧ depCount f = depCount g

variable {L : Fn K → Prop} {nu : Nat}

theorem tname_total (hN : CNameSound L) {f : Fn K} {es : List (Expr K)} (hs : TShape L f es) {ks : List Kind}
    (hk : kindsOf es = .ok ks) : ∃ nm, tname nu (.fn f es) = .ok nm := by
  have h := hN.dot f es hs
  rw [tname, tmangled, if_neg, hk]
  · exact ⟨_, rfl⟩
  · intro hc
    obtain ⟨c, hc, hd⟩ := List.any_eq_true.1 hc
    simp only [decide_eq_true_eq] at hd
    exact h (hd ▸ hc)

theorem tname_ok {f : Fn K} {es : List (Expr K)} {nm : List Char} (h : tname nu (.fn f es) = .ok nm) :
    '.' ∉ (cfun f es).name ∧ ∃ ks rest, kindsOf es = .ok ks ∧
      nm = (cfun f es).name ++ '.' :: (kindsChars ks ++ '.' :: rest) := by
  rw [tname, tmangled] at h
  split_ifs at h with hd
  refine ⟨fun hc => hd (List.any_eq_true.2 ⟨'.', hc, by simp⟩), ?_⟩
  cases hk : kindsOf es with
  | throw => rw [hk] at h; cases h
  | ub => rw [hk] at h; cases h
  | ok ks =>
    rw [hk, Res.bind_ok] at h
    injection h with h
    exact ⟨ks, _, rfl, h.symm⟩

theorem tname_inj (hN : CNameSound L) {f g : Fn K} {es es' : List (Expr K)} (hs : TShape L f es) (hs' : TShape L g es')
    {nm : List Char} (h : tname nu (.fn f es) = .ok nm) (h' : tname nu (.fn g es') = .ok nm) :
    cfun f es = cfun g es' ∧ depCount f = depCount g ∧ kindsOf es = kindsOf es' := by
  obtain ⟨h1, ks, r, h2, h3⟩ := tname_ok h
  obtain ⟨h1', ks', r', h2', h3'⟩ := tname_ok h'
  rw [h3] at h3'
  obtain ⟨h4, h5⟩ := append_sep_inj h1 h1' h3'
  obtain ⟨h7, h8⟩ := hN.inj f es g es' hs hs' h4
  refine ⟨h7, h8, ?_⟩
  rw [h2, h2', kindsChars_inj h5]

/-! ### The calls -/

/-- The element `e` with index `u` can be compiled. -/
structure CElem (L : Fn K → Prop) (u : Nat) (e : TElem K) : Prop where
  u : u < 2 ^ 32
  deps : ∀ d ∈ e.2, d < 2 ^ 32
  fn : ∃ f es, e.1 = .fn f es ∧ TShape L f es ∧ e.2.length = depCount f ∧ (∀ a ∈ es, ArgOk (2 ^ 32) a) ∧
    ∀ k, .par k ∈ es → k < 2 ^ 32

/-- The arguments of the call for the element `e` with index `u`. -/
def TRow (u : Nat) (e : TElem K) (row : List (CArg K)) : Prop :=
  ∃ f es as ks, e.1 = .fn f es ∧ row = .idx u :: (as ++ e.2.map .idx) ∧ List.Forall₂ ArgRel es as ∧
    kindsOf es = .ok ks ∧ List.Forall₂ CKind ks as

theorem callArgs_ok {u : Nat} {e : TElem K} (h : CElem L u e) :
    ∃ as, callArgs e = .ok as ∧ TRow u e (.idx u :: as) := by
  obtain ⟨f, es, h1, -, -, h2, h3⟩ := h.fn
  obtain ⟨as, ks, h4, h5, h6, h7⟩ := argsOf_ok (Nat.le_refl _) es h2 h3
  obtain ⟨e1, ds⟩ := e
  simp only at h1
  subst h1
  exact ⟨as ++ ds.map .idx, by rw [callArgs, h4]; rfl, f, es, as, ks, rfl, rfl, h6, h5, h7⟩

theorem carg_split {ds : List Nat} : ∀ {as r : List (CArg K)}, List.Forall₂ CArgEq (as ++ ds.map .idx) r →
    ∃ as', r = as' ++ ds.map .idx ∧ List.Forall₂ CArgEq as as'
  | [], r, h => by
    refine ⟨[], ?_, .nil⟩
    simp only [List.nil_append] at h ⊢
    induction ds generalizing r with
    | nil => cases h; rfl
    | cons d ds ih =>
      cases h with
      | @cons _ c _ r' h1 h2 =>
        cases c with
        | num n => exact h1.elim
        | idx i =>
          have h1' : d = i := h1
          subst h1'
          rw [ih _ h2]
          rfl
  | a :: as, r, h => by
    cases h with
    | @cons _ c _ r' h1 h2 =>
      obtain ⟨as', h3, h4⟩ := carg_split h2
      exact ⟨c :: as', by rw [h3]; rfl, .cons h1 h4⟩

section
variable [Interp K] [CodeInterp K] [TConst K]

theorem idxsOf_map (ds : List Nat) : idxsOf (ds.map (CArg.idx (K := K))) = .ok ds := by
  induction ds with
  | nil => rfl
  | cons d ds ih => rw [List.map_cons, idxsOf, ih]; rfl

theorem tArgsOf_ok {par : Nat → K} {rest : List (CArg K)} : ∀ {es bs : List (Expr K)} {as : List (CArg K)} {ks : List Kind},
    kindsOf es = .ok ks → kindsOf bs = .ok ks → List.Forall₂ ArgRel es as → (∀ a ∈ es, ArgOk (2 ^ 32) a) →
    ∃ tas, targs par es = .ok tas ∧ tArgsOf par bs (as ++ rest) = .ok (tas, rest)
  | [], bs, as, ks, h, h', ha, _ => by
    cases ha
    cases h
    cases bs with
    | nil => exact ⟨[], rfl, by rw [tArgsOf]; rfl⟩
    | cons b bs =>
      obtain ⟨k, ks', hk, -⟩ := kindsOf_cons h'
      cases hk
  | e :: es, bs, as, ks, h, h', ha, hok => by
    obtain ⟨k, ks', rfl, h1, h2⟩ := kindsOf_cons h
    cases bs with
    | nil => cases h'
    | cons b bs =>
      obtain ⟨k', ks'', h3, h4, h5⟩ := kindsOf_cons h'
      injection h3 with h3 h6
      subst h3 h6
      cases ha with
      | @cons _ a _ as' h7 h8 =>
        obtain ⟨tas, h9, h10⟩ := tArgsOf_ok (par := par) (rest := rest) h2 h5 h8 fun x hx => hok x (List.mem_cons_of_mem _ hx)
        have h0 := hok e List.mem_cons_self
        cases e with
        | fn f fs => exact h0.elim
        | num n =>
          cases h1
          cases b <;> simp only [kindOf, Res.ok.injEq, reduceCtorEq] at h4
          cases a with
          | idx i => exact h7.elim
          | num m =>
            have h7' : n.toK? = m.toK? := h7
            refine ⟨.cst true (V.ofOption n.toK?) :: tas, by simp [targs, targ, h9, Res.bind_eq, Res.pure_eq], ?_⟩
            rw [List.cons_append, tArgsOf, h10, h7']
            rfl
        | par j =>
          cases h1
          cases b <;> simp only [kindOf, Res.ok.injEq, reduceCtorEq] at h4
          cases a with
          | num m => exact h7.elim
          | idx i =>
            have h7' : j = i := h7
            subst h7'
            refine ⟨.cst false (V.fin (par j)) :: tas, by simp [targs, targ, h9, Res.bind_eq, Res.pure_eq], ?_⟩
            rw [List.cons_append, tArgsOf, h10]
            rfl
        | var s =>
          cases h1
          cases b <;> simp only [kindOf, Res.ok.injEq, reduceCtorEq] at h4
          cases a with
          | num m => exact h7.elim
          | idx i =>
            have h7' : s = uname i := h7
            subst h7'
            obtain ⟨j, hj, hji⟩ := h0
            rw [← uname_inj hji] at hj
            refine ⟨.u i :: tas, ?_, ?_⟩
            · simp [targs, targ, h9, Res.bind_eq, Res.pure_eq, unameToIndex_uname, show i < 4294967296 by omega]
            · rw [List.cons_append, tArgsOf, h10]
              rfl

/-- A call through a shared function computes the recurrence of the element. -/
theorem tcall_ok (hN : CNameSound L) {u : Nat} {e : TElem K} (he : CElem L u e) {row row' : List (CArg K)}
    (hrow : TRow u e row) (hrow' : List.Forall₂ CArgEq row row') {g : Fn K} {bs : List (Expr K)} (hb : TShape L g bs)
    {nm : List Char} (hm : tname nu e.1 = .ok nm) (hm' : tname nu (.fn g bs) = .ok nm) (par : Nat → K) (time : K)
    (rd : Nat → Nat → Res (V K)) (n : Nat) :
    tcall par time rd n (.fn g bs) row' = elemDiffC par time rd n u e := by
  obtain ⟨f, es, as, ks, h1, rfl, h2, h3, h4⟩ := hrow
  obtain ⟨f', es', h5, h6, h7, h8, h9⟩ := he.fn
  rw [h1] at h5
  injection h5 with h5 h5'
  subst h5 h5'
  cases hrow' with
  | @cons _ c _ r' h10 h11 =>
    cases c with
    | num m => exact h10.elim
    | idx u' =>
      have h10' : u = u' := h10
      subst h10'
      obtain ⟨as', rfl, h12⟩ := carg_split h11
      rw [h1] at hm
      obtain ⟨h13, -, h14⟩ := tname_inj hN h6 hb hm hm'
      have h15 : List.Forall₂ ArgRel es as' := forall₂_trans (fun _ _ _ h h' => h.trans h') h2 h12
      obtain ⟨tas, h16, h17⟩ := tArgsOf_ok (par := par) (rest := e.2.map .idx) h3 (h14 ▸ h3) h15 h8
      simp only [tcall, h17, Res.bind_ok, idxsOf_map, elemDiffC, h1, h16, Res.bind_eq, h13]

/-! ### The groups of calls -/

/-- The invariant of an entry of `tmp_map`; `E` are the elements of the segment. -/
structure TGroup (L : Fn K → Prop) (nu : Nat) (E : Nat → TElem K → Prop) (g : Sym.Group K) : Prop where
  body : ∃ f bs, g.body = .fn f bs ∧ TShape L f bs
  name : tname nu g.body = .ok g.name
  ne : g.rows ≠ []
  rows : ∀ row ∈ g.rows, ∃ u e, E u e ∧ tname nu e.1 = .ok g.name ∧ TRow u e row

/-- The kinds of the arguments of a call. -/
theorem TRow.kinds {u : Nat} {e : TElem K} (he : CElem L u e) {row : List (CArg K)} (h : TRow u e row) :
    ∃ f es ks, e.1 = .fn f es ∧ TShape L f es ∧ kindsOf es = .ok ks ∧
      List.Forall₂ CKind (.var :: (ks ++ List.replicate (depCount f) .var)) row := by
  obtain ⟨f, es, as, ks, h1, rfl, h2, h3, h4⟩ := h
  obtain ⟨f', es', h5, h6, h7, h8, h9⟩ := he.fn
  rw [h1] at h5
  injection h5 with h5 h5'
  subst h5 h5'
  refine ⟨f, es, ks, h1, h6, h3, .cons he.u ?_⟩
  refine List.rel_append h4 ?_
  rw [← h7]
  have := he.deps
  generalize e.2 = l at this
  clear * - this
  induction l with
  | nil => exact .nil
  | cons d ds ih =>
    exact .cons (this d List.mem_cons_self) (ih fun x hx => this x (List.mem_cons_of_mem _ hx))

theorem TRow.kinds_eq (hN : CNameSound L) {u u' : Nat} {e e' : TElem K} (he : CElem L u e) (he' : CElem L u' e')
    {row row' : List (CArg K)} (h : TRow u e row) (h' : TRow u' e' row') {nm : List Char} (hm : tname nu e.1 = .ok nm)
    (hm' : tname nu e'.1 = .ok nm) : ∃ ks, List.Forall₂ CKind ks row ∧ List.Forall₂ CKind ks row' := by
  obtain ⟨f, es, ks, h1, h2, h3, h4⟩ := h.kinds he
  obtain ⟨f', es', ks', h1', h2', h3', h4'⟩ := h'.kinds he'
  rw [h1] at hm
  rw [h1'] at hm'
  obtain ⟨-, h5, h6⟩ := tname_inj hN h2 h2' hm hm'
  rw [h3, h3'] at h6
  injection h6 with h6
  subst h6
  rw [← h5] at h4'
  exact ⟨_, h4, h4'⟩

theorem tinsertRow_ok (hN : CNameSound L) {E : Nat → TElem K → Prop} (hE : ∀ u e, E u e → CElem L u e) {u : Nat}
    {e : TElem K} {body : Expr K} {row : List (CArg K)}
    {nm : List Char} (he : E u e) (hm : tname nu e.1 = .ok nm) (hrow : TRow u e row)
    (hb : ∃ f bs, body = .fn f bs ∧ TShape L f bs) (hmb : tname nu body = .ok nm) :
    ∀ (gs : List (Sym.Group K)), (∀ g ∈ gs, TGroup L nu E g) →
    ∃ gs', insertRow nm body row gs = .ok gs' ∧ (∀ g ∈ gs', TGroup L nu E g) ∧ (rowsOf gs').Perm (row :: rowsOf gs)
  | [], _ => by
    refine ⟨[⟨nm, body, [row]⟩], rfl, fun g hg => ?_, by simp [rowsOf]⟩
    rw [List.mem_singleton] at hg
    subst hg
    exact ⟨hb, hmb, by simp, fun r hr => ⟨u, e, he, hm, by
      rw [List.mem_singleton] at hr; subst hr; exact hrow⟩⟩
  | g :: gs, hg => by
    have hnew : TGroup L nu E ⟨nm, body, [row]⟩ := ⟨hb, hmb, by simp, fun r hr => ⟨u, e, he, hm, by
      rw [List.mem_singleton] at hr; subst hr; exact hrow⟩⟩
    have hg0 := hg g List.mem_cons_self
    have hgs : ∀ g' ∈ gs, TGroup L nu E g' := fun g' h' => hg g' (List.mem_cons_of_mem _ h')
    simp only [insertRow]
    split_ifs with h1 h2
    · subst h1
      obtain ⟨r, hr⟩ : ∃ r, g.rows.getLast? = some r := by
        cases h : g.rows.getLast? with
        | none => exact absurd (List.getLast?_eq_none_iff.1 h) hg0.ne
        | some r => exact ⟨r, rfl⟩
      obtain ⟨u', e', hE', hm', hrow'⟩ := hg0.rows r (List.mem_of_getLast? hr)
      have hlen : r.length = row.length := by
        obtain ⟨ks, h3, h4⟩ := TRow.kinds_eq hN (hE _ _ hE') (hE _ _ he) hrow' hrow hm' hm
        rw [← h3.length_eq, h4.length_eq]
      refine ⟨⟨g.name, g.body, g.rows ++ [row]⟩ :: gs, ?_, fun g' h' => ?_, ?_⟩
      · rw [hr]
        simp only [hlen, ne_eq, not_true, if_false]
      · rcases List.mem_cons.1 h' with rfl | h'
        · refine ⟨hg0.body, hg0.name, by simp, fun r' hr' => ?_⟩
          rcases List.mem_append.1 hr' with hr' | hr'
          · exact hg0.rows r' hr'
          · rw [List.mem_singleton] at hr'
            subst hr'
            exact ⟨u, e, he, hm, hrow⟩
        · exact hgs g' h'
      · simp only [rowsOf, List.flatMap_cons, List.append_assoc, List.singleton_append]
        exact List.perm_middle
    · refine ⟨_, rfl, fun g' h' => ?_, by simp [rowsOf]⟩
      rcases List.mem_cons.1 h' with rfl | h'
      · exact hnew
      · exact hg g' h'
    · obtain ⟨gs', h3, h4, h5⟩ := tinsertRow_ok hN hE he hm hrow hb hmb gs hgs
      refine ⟨g :: gs', by rw [h3]; rfl, fun g' h' => ?_, ?_⟩
      · rcases List.mem_cons.1 h' with rfl | h'
        · exact hg0
        · exact h4 g' h'
      · simp only [rowsOf, List.flatMap_cons] at h5 ⊢
        exact (List.Perm.append_left _ h5).trans List.perm_middle

/-- The functions in the module have the names derived from their bodies. -/
def TTbl (L : Fn K → Prop) (nu : Nat) (tbl : List (List Char × Expr K)) : Prop :=
  ∀ p ∈ tbl, (∃ f bs, p.2 = .fn f bs ∧ TShape L f bs) ∧ tname nu p.2 = .ok p.1

theorem tgetBody_ok {tbl : List (List Char × Expr K)} (h : TTbl L nu tbl) {nm : List Char} {e : Expr K}
    (ht : ∃ f bs, e = .fn f bs ∧ TShape L f bs) (hm : tname nu e = .ok nm) :
    (∃ f bs, (getBody tbl nm e).1 = .fn f bs ∧ TShape L f bs) ∧ tname nu (getBody tbl nm e).1 = .ok nm ∧
      TTbl L nu (getBody tbl nm e).2 := by
  unfold getBody
  split
  · rename_i body hl
    have := h _ (mem_of_lookup hl)
    exact ⟨this.1, this.2, h⟩
  · refine ⟨ht, hm, fun p hp => ?_⟩
    rcases List.mem_cons.1 hp with rfl | hp
    · exact ⟨ht, hm⟩
    · exact h p hp

/-- The index of the variable computed by a call. -/
def rowTarget : List (CArg K) → Res Nat
  | .idx u :: _ => .ok u
  | _ => .ub

theorem tsegGroups_ok (hN : CNameSound L) {E : Nat → TElem K → Prop} (hE : ∀ u e, E u e → CElem L u e)
    (es : List (TElem K)) : ∀ (tbl : List (List Char × Expr K)) (u : Nat) (gs : List (Sym.Group K)), TTbl L nu tbl →
    (∀ g ∈ gs, TGroup L nu E g) → (∀ (k : Nat) (e : TElem K), es[k]? = some e → E (u + k) e) →
    ∃ tbl' gs', tsegGroups nu tbl u gs es = .ok (tbl', gs') ∧ TTbl L nu tbl' ∧ (∀ g ∈ gs', TGroup L nu E g) ∧
      ((rowsOf gs').map rowTarget).Perm ((List.range' u es.length).map .ok ++ (rowsOf gs).map rowTarget) := by
  induction es with
  | nil =>
    intro tbl u gs ht hg _
    exact ⟨tbl, gs, rfl, ht, hg, by simp⟩
  | cons e es ih =>
    intro tbl u gs ht hg hes
    have h0 := hes 0 e rfl
    rw [Nat.add_zero] at h0
    have hc := hE u e h0
    obtain ⟨f, fs, h1, h2, -, h3, h4⟩ := hc.fn
    obtain ⟨as, h5, h6⟩ := callArgs_ok hc
    obtain ⟨-, ks, -, h7, -⟩ := argsOf_ok (Nat.le_refl _) fs h3 h4
    obtain ⟨nm, h8⟩ := tname_total (nu := nu) hN h2 h7
    rw [← h1] at h8
    obtain ⟨h9, h10, h11⟩ := tgetBody_ok ht ⟨f, fs, h1, h2⟩ h8
    obtain ⟨gs', h12, h13, h14⟩ := tinsertRow_ok hN hE h0 h8 h6 h9 h10 gs hg
    obtain ⟨tbl', gs'', h15, h16, h17, h18⟩ := ih (getBody tbl nm e.1).2 (u + 1) gs' h11 h13 fun k e' hk => by
      have := hes (k + 1) e' (by simpa using hk)
      rwa [show u + 1 + k = u + (k + 1) by omega]
    refine ⟨tbl', gs'', ?_, h16, h17, h18.trans ?_⟩
    · rw [tsegGroups, h8, Res.bind_ok, h5, Res.bind_ok, h12, Res.bind_ok, h15]
    · rw [List.length_cons, List.range'_succ, List.map_cons, List.cons_append]
      refine (List.Perm.append_left _ (h14.map rowTarget)).trans ?_
      rw [List.map_cons]
      exact List.perm_middle

/-! ### The blocks -/

/-- The block made from a group of calls. -/
structure TBlock (g : Sym.Group K) (bl : Block K) : Prop where
  body : bl.body = g.body
  ncalls : bl.ncalls = g.rows.length
  gens : ∀ (j : Nat) row, g.rows[j]? = some row → ∃ row', evalGens j bl.gens = .ok row' ∧ List.Forall₂ CArgEq row row'

theorem tmkBlock_ok (hN : CNameSound L) {E : Nat → TElem K → Prop} (hE : ∀ u e, E u e → CElem L u e) {g : Sym.Group K}
    (hg : TGroup L nu E g) (hl : g.rows.length < 2 ^ 32) : ∃ bl, mkBlock g = .ok bl ∧ TBlock g bl := by
  cases hr : g.rows with
  | nil => exact absurd hr hg.ne
  | cons r rs =>
    obtain ⟨u0, e0, h0, hm0, hr0⟩ := hg.rows r (by rw [hr]; exact List.mem_cons_self)
    obtain ⟨f0, es0, ks0, h1, h2, h3, h4⟩ := hr0.kinds (hE _ _ h0)
    have hk : ∀ row ∈ g.rows, List.Forall₂ CKind (.var :: (ks0 ++ List.replicate (depCount f0) .var)) row := by
      intro row hrow
      obtain ⟨u, e, he, hm, hr⟩ := hg.rows row hrow
      obtain ⟨f', es', ks', h1', h2', h3', h4'⟩ := hr.kinds (hE _ _ he)
      rw [h1] at hm0
      rw [h1'] at hm
      obtain ⟨-, h5, h6⟩ := tname_inj hN h2 h2' hm0 hm
      rw [h3, h3'] at h6
      injection h6 with h6
      subst h6
      rwa [h5]
    obtain ⟨gens, h5, h6⟩ := mkGens_ok hg.ne hl hk _ 0 (Nat.zero_add _)
    have hrl := h4.length_eq
    refine ⟨⟨g.body, gens, g.rows.length⟩, ?_, rfl, rfl, fun j row hj => ?_⟩
    · unfold mkBlock
      rw [hr] at h5 hl ⊢
      simp only
      rw [if_neg (by omega), ← hrl, h5]
      rfl
    · obtain ⟨r', h7, h8⟩ := h6 j row hj
      exact ⟨r', h7, by simpa using h8⟩

theorem tmkBlocks_ok (hN : CNameSound L) {E : Nat → TElem K → Prop} (hE : ∀ u e, E u e → CElem L u e) :
    ∀ (gs : List (Sym.Group K)), (∀ g ∈ gs, TGroup L nu E g) → (rowsOf gs).length < 2 ^ 32 →
    ∃ bls, mkBlocks gs = .ok bls ∧ List.Forall₂ TBlock gs bls
  | [], _, _ => ⟨[], rfl, .nil⟩
  | g :: gs, hg, hl => by
    rw [rowsOf, List.flatMap_cons, List.length_append] at hl
    obtain ⟨bl, h1, h2⟩ := tmkBlock_ok hN hE (hg g List.mem_cons_self) (by omega)
    obtain ⟨bls, h3, h4⟩ := tmkBlocks_ok hN hE gs (fun x hx => hg x (List.mem_cons_of_mem _ hx)) (by rw [rowsOf]; omega)
    exact ⟨bl :: bls, by rw [mkBlocks, h1, Res.bind_ok, h3]; rfl, .cons h2 h4⟩

/-- The code of a segment of `len` elements starting at `s`: each call computes an element, and each element is computed
exactly once. -/
structure SegOk (E : Nat → TElem K → Prop) (s len : Nat) (bs : List (Block K)) : Prop where
  calls : ∀ c ∈ segCalls bs, ∃ u e row, E u e ∧ evalGens c.2 c.1.gens = .ok row ∧ rowTarget row = .ok u ∧
    ∀ (par : Nat → K) time rd n, tcall par time rd n c.1.body row = elemDiffC par time rd n u e
  targets : ((segCalls bs).map callTarget).Perm ((List.range' s len).map .ok)

theorem callTarget_eq {c : Call K} {row : List (CArg K)} (h : evalGens c.2 c.1.gens = .ok row) :
    callTarget c = rowTarget row := by
  rw [callTarget, h, Res.bind_ok]
  rcases row with _ | ⟨_ | _, _⟩ <;> rfl

theorem rowTarget_congr {row row' : List (CArg K)} (h : List.Forall₂ CArgEq row row') : rowTarget row = rowTarget row' := by
  cases h with
  | nil => rfl
  | @cons a b _ _ h1 _ =>
    cases a <;> cases b <;> simp_all [CArgEq, rowTarget]

theorem segCalls_targets : ∀ {gs : List (Sym.Group K)} {bls : List (Block K)}, List.Forall₂ TBlock gs bls →
    (segCalls bls).map callTarget = (rowsOf gs).map rowTarget
  | _, _, .nil => rfl
  | g :: gs, bl :: bls, .cons h1 h2 => by
    rw [segCalls, List.flatMap_cons, List.map_append, rowsOf, List.flatMap_cons, List.map_append]
    congr 1
    · rw [List.map_map]
      refine List.ext_getElem (by simp [h1.ncalls]) fun j hj hj' => ?_
      simp only [List.length_map, List.length_range] at hj
      simp only [List.length_map] at hj'
      obtain ⟨row', h3, h4⟩ := h1.gens j _ (List.getElem?_eq_getElem hj')
      simp only [List.getElem_map, List.getElem_range, Function.comp_apply]
      rw [callTarget_eq (c := (bl, j)) h3, ← rowTarget_congr h4]
    · exact segCalls_targets h2

theorem segCalls_calls (hN : CNameSound L) {E : Nat → TElem K → Prop} (hE : ∀ u e, E u e → CElem L u e) :
    ∀ {gs : List (Sym.Group K)} {bls : List (Block K)}, (∀ g ∈ gs, TGroup L nu E g) → List.Forall₂ TBlock gs bls →
    ∀ c ∈ segCalls bls, ∃ u e row, E u e ∧ evalGens c.2 c.1.gens = .ok row ∧ rowTarget row = .ok u ∧
      ∀ (par : Nat → K) time rd n, tcall par time rd n c.1.body row = elemDiffC par time rd n u e
  | _, _, _, .nil, c, hc => by cases hc
  | g :: gs, bl :: bls, hg, .cons h1 h2, c, hc => by
    rw [segCalls, List.flatMap_cons, List.mem_append] at hc
    rcases hc with hc | hc
    · obtain ⟨j, hj, rfl⟩ := List.mem_map.1 hc
      rw [List.mem_range, h1.ncalls] at hj
      have hg0 := hg g List.mem_cons_self
      have hrow := List.getElem?_eq_getElem hj
      obtain ⟨row', h3, h4⟩ := h1.gens j _ hrow
      obtain ⟨u, e, h5, h6, h7⟩ := hg0.rows _ (List.mem_of_getElem? hrow)
      obtain ⟨f, bs, h8, h9⟩ := hg0.body
      refine ⟨u, e, row', h5, h3, ?_, fun par time rd n => ?_⟩
      · rw [← rowTarget_congr h4]
        obtain ⟨_, _, _, _, _, h10, _⟩ := h7
        rw [h10]
        rfl
      · have hnm := hg0.name
        rw [h8] at hnm
        simp only [h1.body, h8]
        exact tcall_ok hN (hE u e h5) h7 h4 h9 h6 hnm par time rd n
    · exact segCalls_calls hN hE (fun x hx => hg x (List.mem_cons_of_mem _ hx)) h2 c hc

/-- The code generated for a segment. -/
theorem segment_code (hN : CNameSound L) {E : Nat → TElem K → Prop} (hE : ∀ u e, E u e → CElem L u e)
    {tbl : List (List Char × Expr K)} (ht : TTbl L nu tbl) {s : Nat} {seg : List (TElem K)} (hlen : seg.length < 2 ^ 32)
    (hseg : ∀ (k : Nat) (e : TElem K), seg[k]? = some e → E (s + k) e) :
    ∃ tbl' gs bs, tsegGroups nu tbl s [] seg = .ok (tbl', gs) ∧ mkBlocks gs = .ok bs ∧ TTbl L nu tbl' ∧
      SegOk E s seg.length bs := by
  obtain ⟨tbl', gs, h1, h2, h3, h4⟩ := tsegGroups_ok hN hE seg tbl s [] ht (by simp) hseg
  have hl := h4.length_eq
  simp only [rowsOf, List.flatMap_nil, List.map_nil, List.append_nil, List.length_map, List.length_range'] at hl h4
  obtain ⟨bs, h5, h6⟩ := tmkBlocks_ok hN hE gs h3 (by rw [rowsOf]; omega)
  refine ⟨tbl', gs, bs, h1, h5, h2, segCalls_calls hN hE h3 h6, ?_⟩
  rw [segCalls_targets h6]
  exact h4

end

end

end Heyoka.Taylor
