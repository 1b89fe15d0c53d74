import Verif.AD.Rows
import Mathlib.Algebra.BigOperators.Ring.Finset

/-!
# The forward and the reverse pass

The passes over the elements of a decomposition compute the solutions of the systems of equations for
the derivatives with respect to an input, and for the derivatives of an output.
-/

set_option linter.unusedSectionVars false

namespace Heyoka.AD

open Heyoka.Sym

variable [DFunc]

/-! ### The search -/

theorem bfsPush_spec (ns : List Nat) : ∀ (q seen : List Nat), ∃ new,
    bfsPush ns (q, seen) = (q ++ new, seen ++ new) ∧ (∀ a ∈ new, a ∈ ns) ∧ (∀ a ∈ ns, a ∈ seen ++ new) ∧
      (seen.Nodup → (seen ++ new).Nodup) := by
  induction ns with
  | nil => intro q seen; exact ⟨[], by simp [bfsPush], by simp, by simp, by simp⟩
  | cons n ns ih =>
    intro q seen
    rw [bfsPush]
    split_ifs with h
    · obtain ⟨new, h1, h2, h3, h4⟩ := ih q seen
      refine ⟨new, h1, fun a ha => List.mem_cons_of_mem _ (h2 a ha), fun a ha => ?_, h4⟩
      rcases List.mem_cons.1 ha with rfl | ha
      · exact List.mem_append_left _ (by simpa using h)
      · exact h3 a ha
    · obtain ⟨new, h1, h2, h3, h4⟩ := ih (q ++ [n]) (seen ++ [n])
      refine ⟨n :: new, by simpa using h1, fun a ha => ?_, fun a ha => ?_, fun hn => ?_⟩
      · rcases List.mem_cons.1 ha with rfl | ha
        · exact List.mem_cons_self
        · exact List.mem_cons_of_mem _ (h2 a ha)
      · rcases List.mem_cons.1 ha with rfl | ha
        · simp
        · simpa using h3 a ha
      · have : (seen ++ [n]).Nodup := by
          rw [List.nodup_append]
          refine ⟨hn, by simp, fun a ha b hb => ?_⟩
          simp only [List.mem_singleton] at hb
          subst hb
          rintro rfl
          exact h (by simpa using ha)
        simpa using h4 this

theorem bfs_spec {next : Nat → List Nat} : ∀ {fuel : Nat} {q seen r : List Nat},
    bfs next fuel q seen = some r → (∀ a ∈ seen, a ∈ q ∨ ∀ b ∈ next a, b ∈ seen) → (∀ a ∈ q, a ∈ seen) →
      (∀ a ∈ seen, a ∈ r) ∧ (∀ a ∈ r, ∀ b ∈ next a, b ∈ r) ∧
      ∀ P : Nat → Prop, (∀ a ∈ seen, P a) → (∀ a, P a → ∀ b ∈ next a, P b) → ∀ a ∈ r, P a := by
  intro fuel
  induction fuel with
  | zero =>
    intro q seen r h hc _
    cases q with
    | nil =>
      rw [bfs] at h; cases h
      exact ⟨fun a h => h, fun a ha => (hc a ha).resolve_left (by simp), fun P hP _ => hP⟩
    | cons c q => rw [bfs] at h; cases h
  | succ fuel ih =>
    intro q seen r h hc hq
    cases q with
    | nil =>
      rw [bfs] at h; cases h
      exact ⟨fun a h => h, fun a ha => (hc a ha).resolve_left (by simp), fun P hP _ => hP⟩
    | cons c q =>
      rw [bfs] at h
      obtain ⟨new, h1, h2, h3, -⟩ := bfsPush_spec (next c) q seen
      rw [h1] at h
      have hc' : ∀ a ∈ seen ++ new, a ∈ q ++ new ∨ ∀ b ∈ next a, b ∈ seen ++ new := by
        intro a ha
        rcases List.mem_append.1 ha with ha | ha
        · rcases hc a ha with hm | hm
          · rcases List.mem_cons.1 hm with rfl | hm
            · exact .inr h3
            · exact .inl (List.mem_append_left _ hm)
          · exact .inr fun b hb => List.mem_append_left _ (hm b hb)
        · exact .inl (List.mem_append_right _ ha)
      have hq' : ∀ a ∈ q ++ new, a ∈ seen ++ new := by
        intro a ha
        rcases List.mem_append.1 ha with ha | ha
        · exact List.mem_append_left _ (hq a (List.mem_cons_of_mem _ ha))
        · exact List.mem_append_right _ ha
      obtain ⟨g1, g2, g3⟩ := ih h hc' hq'
      refine ⟨fun a ha => g1 a (List.mem_append_left _ ha), g2, fun P hP hn => g3 P (fun a ha => ?_) hn⟩
      rcases List.mem_append.1 ha with ha | ha
      · exact hP a ha
      · exact hn c (hP c (hq c List.mem_cons_self)) a (h2 a ha)

theorem length_le_of_lt {l : List Nat} {N : Nat} (hn : l.Nodup) (h : ∀ a ∈ l, a < N) : l.length ≤ N := by
  have := (hn.subperm (l₂ := List.range N) fun a ha => List.mem_range.2 (h a ha)).length_le
  simpa using this

theorem bfs_total {next : Nat → List Nat} {N : Nat} (hN : ∀ a, ∀ b ∈ next a, b < N) : ∀ {fuel : Nat} {q seen : List Nat},
    seen.Nodup → (∀ a ∈ seen, a < N) → q.length + N ≤ fuel + seen.length → ∃ r, bfs next fuel q seen = some r := by
  intro fuel
  induction fuel with
  | zero =>
    intro q seen hn hs hf
    have := length_le_of_lt hn hs
    cases q with
    | nil => exact ⟨seen, rfl⟩
    | cons c q => simp at hf; omega
  | succ fuel ih =>
    intro q seen hn hs hf
    cases q with
    | nil => exact ⟨seen, rfl⟩
    | cons c q =>
      rw [bfs]
      obtain ⟨new, h1, h2, -, h4⟩ := bfsPush_spec (next c) q seen
      rw [h1]
      refine ih (h4 hn) (fun a ha => ?_) ?_
      · rcases List.mem_append.1 ha with ha | ha
        · exact hs a ha
        · exact hN c a (h2 a ha)
      · simp at hf ⊢; omega

/-! ### The passes -/

section
variable {K : Type} [Field K] [LinearOrder K] [FloorRing K] [Interp K] [FmtName K]

/-- The containers of a decomposition with `N` elements. -/
structure Dag (rows : List (Row K)) (N : Nat) : Prop where
  len : rows.length = N
  lt : ∀ k, ∀ l ∈ dep rows k, l < k
  nodup : ∀ k, (dep rows k).Nodup
  find : ∀ k, ∀ l ∈ dep rows k, ∃ a, adjFind rows k l = some a

variable {rows : List (Row K)} {N : Nat}

theorem Dag.lt_N (h : Dag rows N) {k l : Nat} (hl : l ∈ dep rows k) : k < N := by
  rw [← h.len]
  by_contra hc
  unfold dep at hl
  rw [List.getElem?_eq_none (by omega)] at hl
  simp at hl

/-- A term of the forward pass. -/
def fwdTerm (rows : List (Row K)) (seen : List Nat) (input cur : Nat) (diffs : List (Expr K)) (d : Nat) : Expr K :=
  if d ≠ input ∧ seen.contains d = false then .dbl 0
  else mulE (diffs[d]?.getD (.dbl 0)) ((adjFind rows cur d).getD (.dbl 0))

/-- A term of the reverse pass. -/
def revTerm (rows : List (Row K)) (seen : List Nat) (out cur : Nat) (diffs : List (Expr K)) (d : Nat) : Expr K :=
  if d ≠ out ∧ seen.contains d = false then .dbl 0
  else mulE (diffs[d]?.getD (.dbl 0)) ((adjFind rows d cur).getD (.dbl 0))

theorem fwdTerms_eq {seen : List Nat} {input cur : Nat} {diffs : List (Expr K)} {ds : List Nat}
    (h : ∀ d ∈ ds, d < diffs.length ∧ ∃ a, adjFind rows cur d = some a) :
    fwdTerms rows seen input cur diffs ds = .ok (ds.map (fwdTerm rows seen input cur diffs)) := by
  induction ds with
  | nil => rfl
  | cons d ds ih =>
    have ih := ih fun a ha => h a (List.mem_cons_of_mem _ ha)
    obtain ⟨h1, a, ha⟩ := h d List.mem_cons_self
    rw [fwdTerms, ih, List.map_cons, fwdTerm]
    have hx := List.getElem?_eq_getElem h1
    split_ifs with hc
    · rfl
    · simp only [hx, ha, Option.getD_some]
      rfl

theorem revTerms_eq {seen : List Nat} {out cur : Nat} {diffs : List (Expr K)} {ds : List Nat}
    (h : ∀ d ∈ ds, d < diffs.length ∧ ∃ a, adjFind rows d cur = some a) :
    revTerms rows seen out cur diffs ds = .ok (ds.map (revTerm rows seen out cur diffs)) := by
  induction ds with
  | nil => rfl
  | cons d ds ih =>
    have ih := ih fun a ha => h a (List.mem_cons_of_mem _ ha)
    obtain ⟨h1, a, ha⟩ := h d List.mem_cons_self
    rw [revTerms, ih, List.map_cons, revTerm]
    have hx := List.getElem?_eq_getElem h1
    split_ifs with hc
    · rfl
    · simp only [hx, ha, Option.getD_some]
      rfl

/-- A set of expressions containing everything the passes build. -/
structure Closed (rows : List (Row K)) (G : Expr K → Prop) : Prop where
  dbl : ∀ c, G (.dbl c)
  sum : ∀ es, (∀ e ∈ es, G e) → G (sumE es)
  mul : ∀ a b, G a → G b → G (mulE a b)

theorem fwdPass_ok (hd : Dag rows N) {seen : List Nat} {input : Nat} {cs : List Nat} : ∀ {diffs : List (Expr K)},
    cs.Pairwise (· ≤ ·) → diffs.length = N → (∀ c ∈ cs, c < N) →
    ∃ diffs', fwdPass rows seen input cs diffs = .ok diffs' ∧ diffs'.length = N ∧
      (∀ k, k ∉ cs → diffs'[k]? = diffs[k]?) ∧
      (∀ c ∈ cs, diffs'[c]? = some (sumE ((dep rows c).map (fwdTerm rows seen input c diffs')))) ∧
      ∀ G : Expr K → Prop, Closed rows G → (∀ k, ∀ l ∈ dep rows k, ∀ a, adjFind rows k l = some a → G a) →
        (∀ e ∈ diffs, G e) → ∀ e ∈ diffs', G e := by
  induction cs with
  | nil => intro diffs _ hl _; exact ⟨diffs, rfl, hl, by simp, by simp, fun G _ _ h => h⟩
  | cons c cs ih =>
    intro diffs hs hl hc
    rw [List.pairwise_cons] at hs
    have hterms : ∀ d ∈ dep rows c, d < diffs.length ∧ ∃ a, adjFind rows c d = some a := by
      intro d hd'
      have := hd.lt c d hd'
      have := hc c List.mem_cons_self
      exact ⟨by omega, hd.find c d hd'⟩
    obtain ⟨diffs', h1, h2, h3, h4, h5⟩ := ih (diffs := diffs.set c (sumE ((dep rows c).map (fwdTerm rows seen input c diffs))))
      hs.2 (by simpa using hl) fun a ha => hc a (List.mem_cons_of_mem _ ha)
    refine ⟨diffs', by rw [fwdPass, fwdTerms_eq hterms, Res.bind_ok, h1], h2, fun k hk => ?_, fun a ha => ?_,
      fun G hG hA hD => ?_⟩
    · rw [List.mem_cons, not_or] at hk
      rw [h3 k hk.2, List.getElem?_set_ne (Ne.symm hk.1)]
    · by_cases hac : a ∈ cs
      · exact h4 a hac
      · have hac' : a = c := (List.mem_cons.1 ha).resolve_right hac
        subst hac'
        rw [h3 a hac, List.getElem?_set_self (by have := hc a List.mem_cons_self; omega)]
        congr 2
        refine List.map_congr_left fun d hdd => ?_
        unfold fwdTerm
        have hlt := hd.lt a d hdd
        rw [h3 d (fun hm => by have := hs.1 d hm; omega), List.getElem?_set_ne (by omega)]
    · refine h5 G hG hA fun e he => ?_
      rcases List.mem_or_eq_of_mem_set he with he | rfl
      · exact hD e he
      · refine hG.sum _ fun t ht => ?_
        obtain ⟨d, hdd, rfl⟩ := List.mem_map.1 ht
        unfold fwdTerm
        split_ifs
        · exact hG.dbl 0
        · obtain ⟨h6, a, ha⟩ := hterms d hdd
          rw [List.getElem?_eq_getElem h6, ha]
          exact hG.mul _ _ (hD _ (List.getElem_mem _)) (hA c d hdd a ha)

theorem revPass_ok (hd : Dag rows N) {seen : List Nat} {out : Nat} {cs : List Nat} : ∀ {diffs : List (Expr K)},
    cs.Pairwise (· ≥ ·) → diffs.length = N → (∀ c ∈ cs, c < N) →
    ∃ diffs', revPass rows seen out cs diffs = .ok diffs' ∧ diffs'.length = N ∧
      (∀ k, k ∉ cs → diffs'[k]? = diffs[k]?) ∧
      (∀ c ∈ cs, diffs'[c]? = some (sumE ((revdep rows c).map (revTerm rows seen out c diffs')))) ∧
      ∀ G : Expr K → Prop, Closed rows G → (∀ k, ∀ l ∈ dep rows k, ∀ a, adjFind rows k l = some a → G a) →
        (∀ e ∈ diffs, G e) → ∀ e ∈ diffs', G e := by
  induction cs with
  | nil => intro diffs _ hl _; exact ⟨diffs, rfl, hl, by simp, by simp, fun G _ _ h => h⟩
  | cons c cs ih =>
    intro diffs hs hl hc
    rw [List.pairwise_cons] at hs
    have hterms : ∀ d ∈ revdep rows c, d < diffs.length ∧ ∃ a, adjFind rows d c = some a := by
      intro d hd'
      rw [mem_revdep] at hd'
      have := hd.lt_N hd'
      exact ⟨by omega, hd.find d c hd'⟩
    obtain ⟨diffs', h1, h2, h3, h4, h5⟩ := ih (diffs := diffs.set c (sumE ((revdep rows c).map (revTerm rows seen out c diffs))))
      hs.2 (by simpa using hl) fun a ha => hc a (List.mem_cons_of_mem _ ha)
    refine ⟨diffs', by rw [revPass, revTerms_eq hterms, Res.bind_ok, h1], h2, fun k hk => ?_, fun a ha => ?_,
      fun G hG hA hD => ?_⟩
    · rw [List.mem_cons, not_or] at hk
      rw [h3 k hk.2, List.getElem?_set_ne (Ne.symm hk.1)]
    · by_cases hac : a ∈ cs
      · exact h4 a hac
      · have hac' : a = c := (List.mem_cons.1 ha).resolve_right hac
        subst hac'
        rw [h3 a hac, List.getElem?_set_self (by have := hc a List.mem_cons_self; omega)]
        congr 2
        refine List.map_congr_left fun d hdd => ?_
        unfold revTerm
        have hlt := hd.lt d a (mem_revdep.1 hdd)
        rw [h3 d (fun hm => by have := hs.1 d hm; omega), List.getElem?_set_ne (by omega)]
    · refine h5 G hG hA fun e he => ?_
      rcases List.mem_or_eq_of_mem_set he with he | rfl
      · exact hD e he
      · refine hG.sum _ fun t ht => ?_
        obtain ⟨d, hdd, rfl⟩ := List.mem_map.1 ht
        unfold revTerm
        split_ifs
        · exact hG.dbl 0
        · obtain ⟨h6, a, ha⟩ := hterms d hdd
          rw [List.getElem?_eq_getElem h6, ha]
          exact hG.mul _ _ (hD _ (List.getElem_mem _)) (hA d c (mem_revdep.1 hdd) a ha)

/-- The indices found by the search: the least set containing the given ones and closed under `next`. -/
structure Found (next : Nat → List Nat) (init r : List Nat) : Prop where
  base : ∀ a ∈ init, a ∈ r
  step : ∀ a ∈ r, ∀ b ∈ next a, b ∈ r
  least : ∀ P : Nat → Prop, (∀ a ∈ init, P a) → (∀ a, P a → ∀ b ∈ next a, P b) → ∀ a ∈ r, P a

theorem bfs_found {next : Nat → List Nat} {fuel : Nat} {init r : List Nat} (h : bfs next fuel init init = some r) :
    Found next init r := by
  obtain ⟨h1, h2, h3⟩ := bfs_spec h (fun a ha => .inl ha) fun a ha => ha
  exact ⟨h1, h2, h3⟩

/-- The initial values of the forward pass. -/
def fwdInit (nouts input : Nat) (diffs : List (Expr K)) : List (Expr K) :=
  (diffs.set input (.dbl 1)).take (diffs.length - nouts) ++ List.replicate nouts (.dbl 0)

/-- The initial values of the reverse pass. -/
def revInit (nvars out : Nat) (diffs : List (Expr K)) : List (Expr K) :=
  List.replicate nvars (.dbl 0) ++ (diffs.set out (.dbl 1)).drop nvars

/-- What the forward pass computes. -/
theorem fwdArg_spec (hd : Dag rows N) {fuel nouts input : Nat} {diffs : List (Expr K)} (hl : diffs.length = N)
    (hn : nouts ≤ N) :
    (N ≤ fuel → ∃ diffs', fwdArg fuel rows nouts input diffs = some (.ok diffs')) ∧
    ∀ r, fwdArg fuel rows nouts input diffs = some r → ∃ diffs' seen, r = .ok diffs' ∧ diffs'.length = N ∧
      Found (revdep rows) (revdep rows input) seen ∧
      (∀ k, k ∉ seen → diffs'[k]? = (fwdInit nouts input diffs)[k]?) ∧
      (∀ c ∈ seen, diffs'[c]? = some (sumE ((dep rows c).map (fwdTerm rows seen input c diffs')))) ∧
      ∀ G : Expr K → Prop, Closed rows G → (∀ k, ∀ l ∈ dep rows k, ∀ a, adjFind rows k l = some a → G a) →
        (∀ e ∈ diffs, G e) → ∀ e ∈ diffs', G e := by
  have hN : ∀ a, ∀ b ∈ revdep rows a, b < N := fun a b hb => hd.lt_N (mem_revdep.1 hb)
  have main : ∀ seen, Found (revdep rows) (revdep rows input) seen →
      ∃ diffs', fwdPass rows seen input (seen.insertionSort (· ≤ ·)) (fwdInit nouts input diffs) = .ok diffs' ∧
      diffs'.length = N ∧ (∀ k, k ∉ seen → diffs'[k]? = (fwdInit nouts input diffs)[k]?) ∧
      (∀ c ∈ seen, diffs'[c]? = some (sumE ((dep rows c).map (fwdTerm rows seen input c diffs')))) ∧
      ∀ G : Expr K → Prop, Closed rows G → (∀ k, ∀ l ∈ dep rows k, ∀ a, adjFind rows k l = some a → G a) →
        (∀ e ∈ diffs, G e) → ∀ e ∈ diffs', G e := by
    intro seen hf
    obtain ⟨diffs', h1, h2, h3, h4, h5⟩ := fwdPass_ok hd (seen := seen) (input := input)
      (cs := seen.insertionSort (· ≤ ·)) (diffs := fwdInit nouts input diffs)
      (List.pairwise_insertionSort _ _) (by simp [fwdInit, hl]; omega)
      (fun c hc => hf.least (· < N) (fun a ha => hN _ a ha) (fun a _ b hb => hN a b hb) c (by simpa using hc))
    refine ⟨diffs', h1, h2, fun k hk => h3 k (by simpa using hk), fun c hc => h4 c (by simpa using hc),
      fun G hG hA hD => h5 G hG hA fun e he => ?_⟩
    rcases List.mem_append.1 he with he | he
    · rcases List.mem_or_eq_of_mem_set (List.mem_of_mem_take he) with he | rfl
      · exact hD e he
      · exact hG.dbl 1
    · rw [List.eq_of_mem_replicate he]; exact hG.dbl 0
  refine ⟨fun hfu => ?_, fun r hr => ?_⟩
  · obtain ⟨seen, hs⟩ := bfs_total hN (fuel := fuel) (q := revdep rows input) (revdep_nodup rows input) (fun a ha => hN _ a ha) (by omega)
    obtain ⟨diffs', h1, -⟩ := main seen (bfs_found hs)
    exact ⟨diffs', by rw [fwdArg, hs, Option.map_some]; exact congrArg some h1⟩
  · rw [fwdArg, Option.map_eq_some_iff] at hr
    obtain ⟨seen, hs, rfl⟩ := hr
    obtain ⟨diffs', h1, h2⟩ := main seen (bfs_found hs)
    exact ⟨diffs', seen, h1, h2.1, bfs_found hs, h2.2⟩

/-- What the reverse pass computes. -/
theorem revOut_spec (hd : Dag rows N) {fuel nvars out : Nat} {diffs : List (Expr K)} (hl : diffs.length = N)
    (hn : nvars ≤ N) (ho : out < 2 ^ 32) :
    (N ≤ fuel → ∃ diffs', revOut fuel rows nvars out diffs = some (.ok diffs')) ∧
    ∀ r, revOut fuel rows nvars out diffs = some r → ∃ diffs' seen, r = .ok diffs' ∧ diffs'.length = N ∧
      Found (dep rows) (dep rows out) seen ∧
      (∀ k, k ∉ seen → diffs'[k]? = (revInit nvars out diffs)[k]?) ∧
      (∀ c ∈ seen, diffs'[c]? = some (sumE ((revdep rows c).map (revTerm rows seen out c diffs')))) ∧
      ∀ G : Expr K → Prop, Closed rows G → (∀ k, ∀ l ∈ dep rows k, ∀ a, adjFind rows k l = some a → G a) →
        (∀ e ∈ diffs, G e) → ∀ e ∈ diffs', G e := by
  have hN : ∀ a, ∀ b ∈ dep rows a, b < N := fun a b hb => (hd.lt a b hb).trans (hd.lt_N hb)
  have main : ∀ seen, Found (dep rows) (dep rows out) seen →
      ∃ diffs', revPass rows seen out (seen.insertionSort (· ≥ ·)) (revInit nvars out diffs) = .ok diffs' ∧
      diffs'.length = N ∧ (∀ k, k ∉ seen → diffs'[k]? = (revInit nvars out diffs)[k]?) ∧
      (∀ c ∈ seen, diffs'[c]? = some (sumE ((revdep rows c).map (revTerm rows seen out c diffs')))) ∧
      ∀ G : Expr K → Prop, Closed rows G → (∀ k, ∀ l ∈ dep rows k, ∀ a, adjFind rows k l = some a → G a) →
        (∀ e ∈ diffs, G e) → ∀ e ∈ diffs', G e := by
    intro seen hf
    obtain ⟨diffs', h1, h2, h3, h4, h5⟩ := revPass_ok hd (seen := seen) (out := out)
      (cs := seen.insertionSort (· ≥ ·)) (diffs := revInit nvars out diffs)
      (List.pairwise_insertionSort _ _) (by simp [revInit, hl]; omega)
      (fun c hc => hf.least (· < N) (fun a ha => hN _ a ha) (fun a _ b hb => hN a b hb) c (by simpa using hc))
    refine ⟨diffs', h1, h2, fun k hk => h3 k (by simpa using hk), fun c hc => h4 c (by simpa using hc),
      fun G hG hA hD => h5 G hG hA fun e he => ?_⟩
    rcases List.mem_append.1 he with he | he
    · rw [List.eq_of_mem_replicate he]; exact hG.dbl 0
    · rcases List.mem_or_eq_of_mem_set (List.mem_of_mem_drop he) with he | rfl
      · exact hD e he
      · exact hG.dbl 1
  refine ⟨fun hfu => ?_, fun r hr => ?_⟩
  · obtain ⟨seen, hs⟩ := bfs_total hN (fuel := fuel) (q := dep rows out) (hd.nodup out) (fun a ha => hN _ a ha) (by omega)
    obtain ⟨diffs', h1, -⟩ := main seen (bfs_found hs)
    exact ⟨diffs', by rw [revOut, if_neg (by omega), hs, Option.map_some]; exact congrArg some h1⟩
  · rw [revOut, if_neg (by omega), Option.map_eq_some_iff] at hr
    obtain ⟨seen, hs, rfl⟩ := hr
    obtain ⟨diffs', h1, h2⟩ := main seen (bfs_found hs)
    exact ⟨diffs', seen, h1, h2.1, bfs_found hs, h2.2⟩

end

/-! ### The derivatives -/

/-- The value of an adjoint. -/
noncomputable def adjVal (rows : List (Row ℝ)) (w : Env ℝ) (k l : Nat) : ℝ :=
  ((adjFind rows k l).bind (Expr.eval w)).getD 0

open Classical in
/-- The chain rule for the elements of a decomposition: `D k` is the derivative of the element `k` with
respect to the input `input`, `Occ k` says that it depends on it, `Sm k` that it is differentiable at
the point. -/
structure Facts (rows : List (Row ℝ)) (N input : Nat) (Occ Sm : Nat → Prop) (D : Nat → ℝ)
    (G : Expr ℝ → Prop) (w : Env ℝ) : Prop extends Dag rows N where
  closed : Closed rows G
  smooth : ∀ k, Sm k → ∀ l ∈ dep rows k, Sm l
  inp : dep rows input = []
  inpN : input < N
  occ : ∀ k, k < N → (Occ k ↔ k = input ∨ ∃ l ∈ dep rows k, Occ l)
  one : D input = 1
  zero : ∀ k, Sm k → ¬ Occ k → D k = 0
  adj : ∀ k, k < N → Sm k → Occ k → ∀ l ∈ dep rows k, Occ l →
    ∃ a, adjFind rows k l = some a ∧ G a ∧ a.eval w = some (adjVal rows w k l)
  chain : ∀ k, k < N → Sm k → Occ k → k ≠ input →
    D k = ((dep rows k).map fun l => if Occ l then D l * adjVal rows w k l else 0).sum

theorem evalL_map_some {α : Type} {w : Env ℝ} {g : α → Expr ℝ} {y : α → ℝ} {ds : List α}
    (h : ∀ d ∈ ds, (g d).eval w = some (y d)) : Expr.evalL w (ds.map g) = some (ds.map y) := by
  induction ds with
  | nil => simp
  | cons d ds ih =>
    have h1 := h d List.mem_cons_self
    have h2 := ih fun a ha => h a (List.mem_cons_of_mem _ ha)
    simp [h1, h2]

variable [FmtName ℝ] {rows : List (Row ℝ)} {N input : Nat} {Occ Sm : Nat → Prop} {D : Nat → ℝ} {G : Expr ℝ → Prop} {w : Env ℝ}

theorem Facts.occ_found (F : Facts rows N input Occ Sm D G w) {seen : List Nat}
    (hs : Found (revdep rows) (revdep rows input) seen) {k : Nat} (hk : k < N) : (k = input ∨ k ∈ seen) ↔ Occ k := by
  constructor
  · rintro (rfl | h)
    · exact (F.occ _ F.inpN).2 (.inl rfl)
    · refine (hs.least (fun k => k < N ∧ Occ k) (fun a ha => ?_) (fun a ha b hb => ?_) k h).2
      · have := F.lt_N (mem_revdep.1 ha)
        exact ⟨this, (F.occ a this).2 (.inr ⟨input, mem_revdep.1 ha, (F.occ _ F.inpN).2 (.inl rfl)⟩)⟩
      · have := F.lt_N (mem_revdep.1 hb)
        exact ⟨this, (F.occ b this).2 (.inr ⟨a, mem_revdep.1 hb, ha.2⟩)⟩
  · induction k using Nat.strong_induction_on with
    | _ k ih =>
      intro h
      rcases (F.occ k hk).1 h with h | ⟨l, hl, ho⟩
      · exact .inl h
      · have hlt := F.lt k l hl
        rcases ih l hlt (by omega) ho with rfl | hm
        · exact .inr (hs.base k (mem_revdep.2 hl))
        · exact .inr (hs.step l hm k (mem_revdep.2 hl))

theorem Facts.input_not_found (F : Facts rows N input Occ Sm D G w) {seen : List Nat}
    (hs : Found (revdep rows) (revdep rows input) seen) : input ∉ seen := by
  intro h
  have := hs.least (fun k => input < k) (fun a ha => F.lt a input (mem_revdep.1 ha))
    (fun a ha b hb => by have := F.lt b a (mem_revdep.1 hb); omega) input h
  omega

/-- The forward mode computes the derivatives of the outputs. -/
theorem Facts.forward (F : Facts rows N input Occ Sm D G w) {fuel nouts : Nat} {diffs diffs' : List (Expr ℝ)}
    (hl : diffs.length = N) (hn : nouts ≤ N) (hi : input < N - nouts)
    (h : fwdArg fuel rows nouts input diffs = some (.ok diffs')) {k : Nat} (hk : N - nouts ≤ k) (hkN : k < N)
    (hsm : Sm k) : ∃ e, diffs'[k]? = some e ∧ G e ∧ e.eval w = some (D k) := by
  classical
  obtain ⟨d', seen, he, hl', hs, hrest, hfix, -⟩ := (fwdArg_spec F.toDag hl hn).2 _ h
  cases he
  have hinput : diffs'[input]? = some (.dbl 1) := by
    rw [hrest input (F.input_not_found hs), fwdInit, List.getElem?_append_left (by simp [hl]; omega),
      List.getElem?_take_of_lt (by omega), List.getElem?_set_self (by omega)]
  have main : ∀ k, k ∈ seen → k < N → Sm k → ∃ e, diffs'[k]? = some e ∧ G e ∧ e.eval w = some (D k) := by
    intro k
    induction k using Nat.strong_induction_on with
    | _ k ih =>
      intro hm hkN hsm
      have hocc := (F.occ_found hs hkN).1 (.inr hm)
      have hki : k ≠ input := fun h => F.input_not_found hs (h ▸ hm)
      have hterm : ∀ l ∈ dep rows k, G (fwdTerm rows seen input k diffs' l) ∧
          (fwdTerm rows seen input k diffs' l).eval w = some (if Occ l then D l * adjVal rows w k l else 0) := by
        intro l hl
        have hlt := F.lt k l hl
        unfold fwdTerm
        split_ifs with h1 h2 h2
        · exfalso
          rcases (F.occ_found hs (by omega)).2 h2 with h | h
          · exact h1.1 h
          · simp [h] at h1
        · exact ⟨F.closed.dbl 0, by simp [Expr.dbl]⟩
        · obtain ⟨a, ha, hG, hev⟩ := F.adj k hkN hsm hocc l hl h2
          rw [ha, Option.getD_some]
          rcases (F.occ_found hs (by omega)).2 h2 with rfl | hm'
          · rw [hinput, Option.getD_some, F.one]
            exact ⟨F.closed.mul _ _ (F.closed.dbl 1) hG, eval_mulE (by simp [Expr.dbl]) hev⟩
          · obtain ⟨e, he, hGe, hee⟩ := ih l hlt hm' (by omega) (F.smooth k hsm l hl)
            rw [he, Option.getD_some]
            exact ⟨F.closed.mul _ _ hGe hG, eval_mulE hee hev⟩
        · exfalso
          push Not at h1
          refine h2 ((F.occ_found hs (by omega)).1 ?_)
          by_cases h3 : l = input
          · exact .inl h3
          · have := h1 h3
            simp at this
            exact .inr this
      refine ⟨_, hfix k hm, F.closed.sum _ fun e he => ?_, ?_⟩
      · obtain ⟨l, hl, rfl⟩ := List.mem_map.1 he
        exact (hterm l hl).1
      · rw [eval_sumE_of (evalL_map_some fun l hl => (hterm l hl).2), F.chain k hkN hsm hocc hki]
  by_cases hm : k ∈ seen
  · exact main k hm hkN hsm
  · have hno : ¬ Occ k := by
      intro h
      rcases (F.occ_found hs hkN).2 h with h | h
      · omega
      · exact hm h
    refine ⟨.dbl 0, ?_, F.closed.dbl 0, by rw [F.zero k hsm hno]; simp [Expr.dbl]⟩
    rw [hrest k hm, fwdInit, List.getElem?_append_right (by simp [hl]; omega), List.getElem?_replicate, if_pos]
    simp only [List.length_take, List.length_set, hl]
    omega

open Finset in
/-- Summation over the elements in both directions. -/
theorem exchange {N input out : Nat} {C : Nat → Prop} [DecidablePred C] {D E : Nat → ℝ} {A : Nat → Nat → ℝ} (hC : ∀ k, C k → k < N)
    (hi : C input) (ho : C out) (hA : ∀ l, A input l = 0) (hB : ∀ k, C k → A k out = 0)
    (hD : ∀ k, C k → k ≠ input → D k = ∑ l ∈ (range N).filter C, A k l * D l)
    (hE : ∀ l, C l → l ≠ out → E l = ∑ k ∈ (range N).filter C, E k * A k l) :
    E input * D input = E out * D out := by
  have h1 : ∑ k ∈ (range N).filter C, E k * D k =
      E input * D input + ∑ k ∈ (range N).filter C, ∑ l ∈ (range N).filter C, E k * A k l * D l := by
    rw [← Finset.add_sum_erase _ _ (a := input) (by simp [hi, hC _ hi]),
      ← Finset.add_sum_erase (a := input) ((range N).filter C) (fun k => ∑ l ∈ (range N).filter C, E k * A k l * D l)
        (by simp [hi, hC _ hi])]
    simp only [hA, mul_zero, zero_mul, Finset.sum_const_zero, zero_add]
    congr 1
    refine Finset.sum_congr rfl fun k hk => ?_
    rw [Finset.mem_erase, Finset.mem_filter] at hk
    rw [hD k hk.2.2 hk.1, Finset.mul_sum]
    exact Finset.sum_congr rfl fun l _ => by ring
  have h2 : ∑ l ∈ (range N).filter C, E l * D l =
      E out * D out + ∑ l ∈ (range N).filter C, ∑ k ∈ (range N).filter C, E k * A k l * D l := by
    rw [← Finset.add_sum_erase _ _ (a := out) (by simp [ho, hC _ ho]),
      ← Finset.add_sum_erase (a := out) ((range N).filter C) (fun l => ∑ k ∈ (range N).filter C, E k * A k l * D l)
        (by simp [ho, hC _ ho])]
    have : ∑ k ∈ (range N).filter C, E k * A k out * D out = 0 :=
      Finset.sum_eq_zero fun k hk => by rw [hB k (Finset.mem_filter.1 hk).2]; ring
    rw [this, zero_add]
    congr 1
    refine Finset.sum_congr rfl fun l hl => ?_
    rw [Finset.mem_erase, Finset.mem_filter] at hl
    rw [hE l hl.2.2 hl.1, Finset.sum_mul]
  rw [Finset.sum_comm] at h2
  linarith

open Classical in
/-- The reverse mode computes the derivative of an output. -/
theorem Facts.reverse (F : Facts rows N input Occ Sm D G w) {fuel nvars out : Nat} {diffs diffs' : List (Expr ℝ)}
    (hl : diffs.length = N) (hn : nvars ≤ out) (hi : input < nvars) (ho : out < 2 ^ 32) (hoN : out < N)
    (h : revOut fuel rows nvars out diffs = some (.ok diffs')) (hsm : Sm out) :
    ∃ e, diffs'[input]? = some e ∧ G e ∧ e.eval w = some (D out) := by
  obtain ⟨d', seen, he, hl', hs, hrest, hfix, -⟩ := (revOut_spec F.toDag hl (by omega) ho).2 _ h
  cases he
  have hless : ∀ k ∈ seen, k < out :=
    hs.least (· < out) (fun a ha => F.lt _ _ ha) fun a ha b hb => (F.lt _ _ hb).trans ha
  have hnout : out ∉ seen := fun h => absurd (hless _ h) (lt_irrefl _)
  have hsmooth : ∀ k ∈ seen, Sm k := hs.least Sm (fun a ha => F.smooth _ hsm _ ha) fun a ha b hb => F.smooth _ ha _ hb
  have houtv : diffs'[out]? = some (.dbl 1) := by
    rw [hrest out hnout, revInit, List.getElem?_append_right (by simpa using hn), List.getElem?_drop, List.length_replicate,
      show nvars + (out - nvars) = out by omega, List.getElem?_set_self (by omega)]
  -- the elements the output depends on and that depend on the input
  set C : Nat → Prop := fun k => (k = out ∨ k ∈ seen) ∧ Occ k with hC
  have hCN : ∀ k, C k → k < N := by
    rintro k ⟨rfl | h, -⟩
    · exact hoN
    · exact (hless k h).trans hoN
  have hCS : ∀ k, C k → Sm k := by
    rintro k ⟨rfl | h, -⟩
    · exact hsm
    · exact hsmooth k h
  have hdep : ∀ k, (k = out ∨ k ∈ seen) → ∀ l ∈ dep rows k, l ∈ seen := by
    rintro k (rfl | h) l hl
    · exact hs.base l hl
    · exact hs.step k h l hl
  by_cases hocc : Occ out
  · -- the values of the elements
    have hup : ∀ l, C l → ∀ k ∈ revdep rows l, (k = out ∨ k ∈ seen) → C k := fun l hlC k hk hks =>
      ⟨hks, (F.occ k (F.lt_N (mem_revdep.1 hk))).2 (.inr ⟨l, mem_revdep.1 hk, hlC.2⟩)⟩
    let E : Nat → ℝ := fun k => ((diffs'[k]?).bind (Expr.eval w)).getD 0
    have hval : ∀ m k, N - k = m → C k → ∃ e, diffs'[k]? = some e ∧ G e ∧ e.eval w = some (E k) ∧
        (k ≠ out → E k = ((revdep rows k).map fun d => if C d then E d * adjVal rows w d k else 0).sum) := by
      intro m
      induction m using Nat.strong_induction_on with
      | _ m ih =>
        intro k hm hk
        by_cases hko : k = out
        · subst hko
          exact ⟨_, houtv, F.closed.dbl 1, by simp [E, houtv, Expr.dbl], fun h => absurd rfl h⟩
        · have hks : k ∈ seen := hk.1.resolve_left hko
          have hterm : ∀ d ∈ revdep rows k, G (revTerm rows seen out k diffs' d) ∧
              (revTerm rows seen out k diffs' d).eval w = some (if C d then E d * adjVal rows w d k else 0) := by
            intro d hd
            have hlt := F.lt d k (mem_revdep.1 hd)
            have hdN := F.lt_N (mem_revdep.1 hd)
            by_cases hCd : C d
            · have h1 : ¬ (d ≠ out ∧ seen.contains d = false) := by
                rintro ⟨h1, h2⟩
                rcases hCd.1 with h | h
                · exact h1 h
                · simp [h] at h2
              obtain ⟨e, he, hGe, hee, -⟩ := ih (N - d) (by omega) d rfl hCd
              obtain ⟨a, ha, hGa, hea⟩ := F.adj d hdN (hCS d hCd) hCd.2 k (mem_revdep.1 hd) hk.2
              unfold revTerm
              rw [if_neg h1, if_pos hCd, he, ha, Option.getD_some, Option.getD_some]
              exact ⟨F.closed.mul _ _ hGe hGa, eval_mulE hee hea⟩
            · have h1 : d ≠ out ∧ seen.contains d = false := by
                by_contra hc
                refine hCd (hup k hk d hd ?_)
                by_cases h2 : d = out
                · exact .inl h2
                · right
                  by_contra h3
                  exact hc ⟨h2, by simpa using h3⟩
              unfold revTerm
              rw [if_pos h1, if_neg hCd]
              exact ⟨F.closed.dbl 0, by simp [Expr.dbl]⟩
          have hev := eval_sumE_of (evalL_map_some fun d hd => (hterm d hd).2)
          have hEk : E k = ((revdep rows k).map fun d => if C d then E d * adjVal rows w d k else 0).sum := by
            show ((diffs'[k]?).bind (Expr.eval w)).getD 0 = _
            rw [hfix k hks, Option.bind_some, hev, Option.getD_some]
          refine ⟨_, hfix k hks, F.closed.sum _ fun e he => ?_, hEk ▸ hev, fun _ => hEk⟩
          obtain ⟨d, hd, rfl⟩ := List.mem_map.1 he
          exact (hterm d hd).1
    have hinC : C input := by
      have : ∀ k, (k = out ∨ k ∈ seen) → Occ k → (input = out ∨ input ∈ seen) := by
        intro k
        induction k using Nat.strong_induction_on with
        | _ k ih =>
          intro hk ho'
          have hkN : k < N := hCN k ⟨hk, ho'⟩
          rcases (F.occ k hkN).1 ho' with rfl | ⟨l, hl, hol⟩
          · exact hk
          · exact ih l (F.lt _ _ hl) (.inr (hdep k hk l hl)) hol
      exact ⟨this out (.inl rfl) hocc, (F.occ _ F.inpN).2 (.inl rfl)⟩
    have houtC : C out := ⟨.inl rfl, hocc⟩
    have sum_eq : ∀ (ds : List Nat), ds.Nodup → (∀ d ∈ ds, d < N) → ∀ (g : Nat → ℝ),
        (ds.map fun d => if C d then g d else 0).sum = ∑ d ∈ (Finset.range N).filter C, if d ∈ ds then g d else 0 := by
      intro ds hnd hN g
      rw [← List.sum_toFinset _ hnd, ← Finset.sum_filter, ← Finset.sum_filter]
      refine Finset.sum_congr ?_ fun _ _ => rfl
      ext d
      simp only [Finset.mem_filter, List.mem_toFinset, Finset.mem_range]
      constructor
      · rintro ⟨h1, h2⟩; exact ⟨⟨hN d h1, h2⟩, h1⟩
      · rintro ⟨⟨-, h1⟩, h2⟩; exact ⟨h2, h1⟩
    have key := exchange (N := N) (input := input) (out := out) (C := C) (D := D) (E := E)
      (A := fun k l => if l ∈ dep rows k then adjVal rows w k l else 0) hCN hinC houtC
      (fun l => by simp [F.inp])
      (fun k hk => by
        rw [if_neg]
        intro hm
        exact hnout (hdep k hk.1 out hm))
      (fun k hk hki => by
        rw [F.chain k (hCN k hk) (hCS k hk) hk.2 hki]
        have : ((dep rows k).map fun l => if Occ l then D l * adjVal rows w k l else 0) =
            (dep rows k).map fun l => if C l then D l * adjVal rows w k l else 0 := by
          refine List.map_congr_left fun l hl => ?_
          have : C l ↔ Occ l := ⟨fun h => h.2, fun h => ⟨.inr (hdep k hk.1 l hl), h⟩⟩
          simp only [this]
        rw [this, sum_eq _ (F.nodup k) (fun d hd => (F.lt _ _ hd).trans (hCN k hk))]
        refine Finset.sum_congr rfl fun l _ => ?_
        split_ifs <;> ring)
      (fun l hlC hlo => by
        obtain ⟨-, -, -, -, h5⟩ := hval _ l rfl hlC
        rw [h5 hlo, sum_eq _ (revdep_nodup rows l) (fun d hd => F.lt_N (mem_revdep.1 hd))]
        refine Finset.sum_congr rfl fun k _ => ?_
        simp only [mem_revdep]
        split_ifs <;> ring)
    obtain ⟨e, he, hG, hev, -⟩ := hval _ input rfl hinC
    obtain ⟨e', he', -, hev', -⟩ := hval _ out rfl houtC
    rw [houtv] at he'
    cases he'
    have hE1 : E out = 1 := by simp [E, houtv, Expr.dbl]
    rw [F.one, hE1, mul_one, one_mul] at key
    exact ⟨e, he, hG, key ▸ hev⟩
  · have hnin : input ∉ seen := by
      intro h
      have : ∀ k ∈ seen, ¬ Occ k := hs.least (fun k => ¬ Occ k)
        (fun a ha hoa => hocc ((F.occ out hoN).2 (.inr ⟨a, ha, hoa⟩)))
        fun a ha b hb hob => ha ((F.occ a (F.lt_N hb)).2 (.inr ⟨b, hb, hob⟩))
      exact this input h ((F.occ _ F.inpN).2 (.inl rfl))
    refine ⟨.dbl 0, ?_, F.closed.dbl 0, by rw [F.zero out hsm hocc]; simp [Expr.dbl]⟩
    rw [hrest input hnin, revInit, List.getElem?_append_left (by simpa using hi), List.getElem?_replicate, if_pos hi]

end Heyoka.AD
