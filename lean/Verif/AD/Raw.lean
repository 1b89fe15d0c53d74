import Verif.AD.Dec

/-!
# The new derivatives of one order
-/

set_option linter.unusedSectionVars false

namespace Heyoka.AD

open Heyoka.Sym Heyoka.Dtens

variable [DFunc]

/-- The derivatives of the order `cur`: all of them, sorted. -/
structure Level (nouts nargs cur : Nat) (prev : List (SIdx × Expr ℝ)) : Prop where
  sorted : prev.Pairwise fun p q => Less p.1 q.1
  keys : ∀ v : SIdx, (∃ p ∈ prev, p.1 = v) ↔
    v.1 < nouts ∧ Sane v.2 ∧ (∀ q ∈ v.2, q.1 < nargs) ∧ degree v.2 = cur

theorem Level.nodup {nouts nargs cur : Nat} {prev : List (SIdx × Expr ℝ)} (h : Level nouts nargs cur prev) :
    (prev.map (·.1)).Nodup := by
  rw [List.Nodup, List.pairwise_map]
  refine h.sorted.imp fun {p q} hl he => ?_
  rw [he] at hl
  exact Less.irrefl _ hl

theorem Level.ok {nouts nargs cur : Nat} {prev : List (SIdx × Expr ℝ)} (h : Level nouts nargs cur prev)
    {p : SIdx × Expr ℝ} (hp : p ∈ prev) :
    p.1.1 < nouts ∧ Sane p.1.2 ∧ (∀ q ∈ p.1.2, q.1 < nargs) ∧ degree p.1.2 = cur := (h.keys p.1).1 ⟨p, hp, rfl⟩

theorem sane_zero {l : List (Nat × Nat)} (h : Sane l) (h0 : degree l = 0) : l = [] := by
  cases l with
  | nil => rfl
  | cons p l =>
    have := h.2 p List.mem_cons_self
    simp only [degree, List.map_cons, List.sum_cons] at h0
    omega

theorem addIdx_has (j : Nat) (l : List (Nat × Nat)) : (∃ r ∈ addIdx j l, r.1 = j) ∧ ∀ q ∈ l, ∃ r ∈ addIdx j l, r.1 = q.1 := by
  induction l with
  | nil => simp [addIdx]
  | cons p l ih =>
    obtain ⟨k, o⟩ := p
    rw [addIdx]
    split_ifs with h1 h2
    · obtain ⟨⟨r, hr, h3⟩, h4⟩ := ih
      refine ⟨⟨r, List.mem_cons_of_mem _ hr, h3⟩, fun q hq => ?_⟩
      rcases List.mem_cons.1 hq with rfl | hq
      · exact ⟨_, List.mem_cons_self, rfl⟩
      · obtain ⟨r, hr, h5⟩ := h4 q hq
        exact ⟨r, List.mem_cons_of_mem _ hr, h5⟩
    · refine ⟨⟨_, List.mem_cons_self, h2⟩, fun q hq => ?_⟩
      rcases List.mem_cons.1 hq with rfl | hq
      · exact ⟨_, List.mem_cons_self, rfl⟩
      · exact ⟨q, List.mem_cons_of_mem _ hq, rfl⟩
    · exact ⟨⟨_, List.mem_cons_self, rfl⟩, fun q hq => ⟨q, List.mem_cons_of_mem _ hq, rfl⟩⟩

theorem addIdx_ne_nil (j : Nat) (l : List (Nat × Nat)) : addIdx j l ≠ [] := by
  obtain ⟨⟨r, hr, -⟩, -⟩ := addIdx_has j l
  exact fun h => by rw [h] at hr; cases hr

/-- The new derivatives, before the sorting. `R p x j q`: `q` is the derivative of `p` with respect to the
argument `x` with the index `j`. -/
structure Raw (R : SIdx × Expr ℝ → DVar → Nat → SIdx × Expr ℝ → Prop) (args : List DVar)
    (prev raw : List (SIdx × Expr ℝ)) : Prop where
  nodup : (raw.map (·.1)).Nodup
  src : ∀ q ∈ raw, ∃ p ∈ prev, ∃ (j : Nat) (x : DVar), args[j]? = some x ∧ R p x j q ∧ ∀ r ∈ p.1.2, j ≤ r.1
  cover : ∀ p ∈ prev, ∀ j, j < args.length → ∃ q ∈ raw, q.1 = (p.1.1, addIdx j p.1.2)

variable {R : SIdx × Expr ℝ → DVar → Nat → SIdx × Expr ℝ → Prop} {args : List DVar} {prev : List (SIdx × Expr ℝ)}
variable {nouts : Nat}

theorem addDiffs_flatten (NS : List (List (SIdx × Expr ℝ))) : ∀ acc : List (SIdx × Expr ℝ),
    NS.foldl (addDiffs true) acc = acc ++ NS.flatten := by
  induction NS with
  | nil => simp
  | cons n NS ih => intro acc; rw [List.foldl_cons, ih, addDiffs, if_pos rfl, List.flatten_cons, List.append_assoc]

theorem forall₂_mem_right {α β : Type} {Q : α → β → Prop} {as : List α} {bs : List β} (h : List.Forall₂ Q as bs) :
    ∀ {b : β}, b ∈ bs → ∃ a ∈ as, Q a b := by
  induction h with
  | nil => intro b hb; cases hb
  | cons hab _ ih =>
    intro b hb
    rcases List.mem_cons.1 hb with rfl | hb
    · exact ⟨_, List.mem_cons_self, hab⟩
    · obtain ⟨a, ha, h⟩ := ih hb
      exact ⟨a, List.mem_cons_of_mem _ ha, h⟩

theorem forall₂_mem_left {α β : Type} {Q : α → β → Prop} {as : List α} {bs : List β} (h : List.Forall₂ Q as bs) :
    ∀ {a : α}, a ∈ as → ∃ b ∈ bs, Q a b := by
  induction h with
  | nil => intro b hb; cases hb
  | cons hab _ ih =>
    intro b hb
    rcases List.mem_cons.1 hb with rfl | hb
    · exact ⟨_, List.mem_cons_self, hab⟩
    · obtain ⟨a, ha, h⟩ := ih hb
      exact ⟨a, List.mem_cons_of_mem _ ha, h⟩

/-- The keys of a list of lists of derivatives. -/
theorem flatten_nodup {α β : Type} {as : List α} {bs : List β} {key : α → β → SIdx} {NS : List (List (SIdx × Expr ℝ))}
    (h : List.Forall₂ (fun a ns => List.Forall₂ (fun b q => q.1 = key a b) bs ns) as NS)
    (h1 : ∀ a, (bs.map (key a)).Nodup) (h2 : as.Pairwise fun a a' => ∀ b ∈ bs, ∀ b' ∈ bs, key a b ≠ key a' b') :
    (NS.flatten.map (·.1)).Nodup := by
  have he : NS.flatten.map (·.1) = as.flatMap fun a => bs.map (key a) := by
    clear h1 h2
    induction h with
    | nil => rfl
    | cons hab _ ih =>
      rw [List.flatten_cons, List.map_append, List.flatMap_cons, ih]
      congr 1
      clear ih
      rename_i hrest
      clear hrest
      induction hab with
      | nil => rfl
      | cons h _ ih => rw [List.map_cons, List.map_cons, h, ih]
  rw [he, List.nodup_flatMap]
  refine ⟨fun a _ => h1 a, h2.imp fun hne => ?_⟩
  rw [Function.onFun, List.disjoint_left]
  intro v hv hv'
  obtain ⟨b, hb, rfl⟩ := List.mem_map.1 hv
  obtain ⟨b', hb', he⟩ := List.mem_map.1 hv'
  exact hne b hb b' hb' he.symm

theorem mem_zipIdx0 {y : DVar × Nat} (h : y ∈ args.zipIdx) : args[y.2]? = some y.1 := by
  rw [List.mem_zipIdx_iff_getElem?] at h
  exact h

/-- The first order, forward mode. -/
theorem raw_first_fwd (hR : ∀ p x j q, R p x j q → q.1 = (p.1.1, addIdx j p.1.2)) (hl : Level nouts args.length 0 prev)
    {NS : List (List (SIdx × Expr ℝ))}
    (h : List.Forall₂ (fun (y : DVar × Nat) ns => List.Forall₂ (fun p q => R p y.1 y.2 q) prev ns) args.zipIdx NS) :
    Raw R args prev (NS.foldl (addDiffs true) []) := by
  rw [addDiffs_flatten, List.nil_append]
  have hnil : ∀ p ∈ prev, p.1.2 = [] := fun p hp => sane_zero (hl.ok hp).2.1 (hl.ok hp).2.2.2
  refine ⟨?_, fun q hq => ?_, fun p hp j hj => ?_⟩
  · refine flatten_nodup (as := args.zipIdx) (bs := prev) (key := fun y p => (p.1.1, addIdx y.2 p.1.2))
      (h.imp fun y ns h => h.imp fun p q h => hR _ _ _ _ h) (fun y => ?_) ?_
    · rw [List.Nodup, List.pairwise_map]
      refine hl.sorted.imp_of_mem fun {p q} hp hq hlt he => ?_
      have h1 : p.1 = q.1 := Prod.ext (Prod.mk.inj he).1 ((hnil p hp).trans (hnil q hq).symm)
      exact Less.irrefl _ (h1 ▸ hlt)
    · have : (args.zipIdx.map (·.2)).Nodup := by
        rw [List.zipIdx_map_snd]
        exact List.nodup_range'
      rw [List.Nodup, List.pairwise_map] at this
      refine this.imp fun hne p hp q hq he => hne ?_
      rw [hnil p hp, hnil q hq] at he
      simpa [addIdx] using (Prod.mk.inj he).2
  · obtain ⟨ns, hns, hq⟩ := List.mem_flatten.1 hq
    obtain ⟨y, hy, h1⟩ := forall₂_mem_right h hns
    obtain ⟨p, hp, h2⟩ := forall₂_mem_right h1 hq
    exact ⟨p, hp, y.2, y.1, mem_zipIdx0 hy, h2, by rw [hnil p hp]; simp⟩
  · have hy : (args[j], j) ∈ args.zipIdx := by
      rw [List.mem_zipIdx_iff_getElem?]
      exact List.getElem?_eq_getElem hj
    obtain ⟨ns, hns, h1⟩ := forall₂_mem_left h hy
    obtain ⟨q, hq, h2⟩ := forall₂_mem_left h1 hp
    exact ⟨q, List.mem_flatten.2 ⟨ns, hns, hq⟩, hR _ _ _ _ h2⟩

/-- The first order, reverse mode. -/
theorem raw_first_rev (hR : ∀ p x j q, R p x j q → q.1 = (p.1.1, addIdx j p.1.2)) (hl : Level nouts args.length 0 prev)
    {NS : List (List (SIdx × Expr ℝ))}
    (h : List.Forall₂ (fun p ns => List.Forall₂ (fun (y : DVar × Nat) q => R p y.1 y.2 q) args.zipIdx ns) prev NS) :
    Raw R args prev (NS.foldl (addDiffs true) []) := by
  rw [addDiffs_flatten, List.nil_append]
  have hnil : ∀ p ∈ prev, p.1.2 = [] := fun p hp => sane_zero (hl.ok hp).2.1 (hl.ok hp).2.2.2
  refine ⟨?_, fun q hq => ?_, fun p hp j hj => ?_⟩
  · have h' : List.Forall₂ (fun p ns => List.Forall₂ (fun (y : DVar × Nat) q => q.1 = ((p.1.1, [(y.2, 1)]) : SIdx)) args.zipIdx ns)
        prev NS := by
      have hmem : List.Forall₂ (fun p ns => p ∈ prev ∧ List.Forall₂ (fun (y : DVar × Nat) q => R p y.1 y.2 q) args.zipIdx ns) prev NS :=
        forall₂_of_getElem h.length_eq fun k a b ha hb => by
          obtain ⟨b', hb', hR⟩ := forall₂_getElem h ha
          rw [hb] at hb'
          cases hb'
          exact ⟨List.mem_of_getElem? ha, hR⟩
      refine hmem.imp fun p ns h => h.2.imp fun y q hq => ?_
      rw [hR _ _ _ _ hq, hnil p h.1, addIdx]
    refine flatten_nodup (as := prev) (bs := args.zipIdx) (key := fun p y => (p.1.1, [(y.2, 1)])) h' (fun p => ?_) ?_
    · have : (args.zipIdx.map (·.2)).Nodup := by
        rw [List.zipIdx_map_snd]
        exact List.nodup_range'
      rw [List.Nodup, List.pairwise_map] at this ⊢
      exact this.imp fun hne he => hne (by simpa using he)
    · refine hl.sorted.imp_of_mem fun {p q} hp hq hlt y hy y' hy' he => ?_
      have h1 : p.1 = q.1 := Prod.ext (Prod.mk.inj he).1 ((hnil p hp).trans (hnil q hq).symm)
      exact Less.irrefl _ (h1 ▸ hlt)
  · obtain ⟨ns, hns, hq⟩ := List.mem_flatten.1 hq
    obtain ⟨p, hp, h1⟩ := forall₂_mem_right h hns
    obtain ⟨y, hy, h2⟩ := forall₂_mem_right h1 hq
    exact ⟨p, hp, y.2, y.1, mem_zipIdx0 hy, h2, by rw [hnil p hp]; simp⟩
  · have hy : (args[j], j) ∈ args.zipIdx := by
      rw [List.mem_zipIdx_iff_getElem?]
      exact List.getElem?_eq_getElem hj
    obtain ⟨ns, hns, h1⟩ := forall₂_mem_left h hp
    obtain ⟨q, hq, h2⟩ := forall₂_mem_left h1 hy
    exact ⟨q, List.mem_flatten.2 ⟨ns, hns, hq⟩, hR _ _ _ _ h2⟩

/-- Higher orders. -/
theorem raw_higher {cur : Nat} (hR : ∀ p x j q, R p x j q → q.1 = (p.1.1, addIdx j p.1.2))
    (hl : Level nouts args.length cur prev) : ∀ (xs : List DVar) (s : Nat) (NS : List (List (SIdx × Expr ℝ)))
      (acc : List (SIdx × Expr ℝ)), args.drop s = xs → (acc.map (·.1)).Nodup →
      (∀ q ∈ acc, ∃ p ∈ prev, ∃ (j : Nat) (x : DVar), args[j]? = some x ∧ R p x j q ∧ ∀ r ∈ p.1.2, j ≤ r.1) →
      (∀ p ∈ prev, ∀ j, j < s → j < args.length → ∃ q ∈ acc, q.1 = (p.1.1, addIdx j p.1.2)) →
      List.Forall₂ (fun (y : DVar × Nat) ns => List.Forall₂ (fun p q => R p y.1 y.2 q) prev ns) (xs.zipIdx s) NS →
      Raw R args prev (NS.foldl (addDiffs false) acc) := by
  intro xs
  induction xs with
  | nil =>
    intro s NS acc hs h1 h2 h3 h
    cases h
    have : args.length ≤ s := by simpa using hs
    exact ⟨h1, h2, fun p hp j hj => h3 p hp j (by omega) hj⟩
  | cons x xs ih =>
    intro s NS acc hs h1 h2 h3 h
    rw [List.zipIdx_cons] at h
    cases h with
    | @cons _ ns _ NS hns hNS =>
    have hx : args[s]? = some x := by
      have := congrArg (fun l => l[0]?) hs
      simpa using this
    have hs' : args.drop (s + 1) = xs := by
      rw [← List.tail_drop, hs]
      rfl
    obtain ⟨g1, g2, g3, g4⟩ := foldl_addMap ns acc h1
    rw [List.foldl_cons]
    refine ih (s + 1) NS (addDiffs false acc ns) hs' g1 (fun q hq => ?_) (fun p hp j hj hja => ?_) hNS
    · rcases g2 q hq with hq | ⟨hq, hnew⟩
      · exact h2 q hq
      · obtain ⟨p, hp, hpq⟩ := forall₂_mem_right hns hq
        refine ⟨p, hp, s, x, hx, hpq, fun r hr => ?_⟩
        by_contra hc
        obtain ⟨hp1, hp2, hp3, hp4⟩ := hl.ok hp
        obtain ⟨j', α, he, hα, hmin, hsub, -, hfirst⟩ := exists_addIdx (addIdx_sane (j := s) hp2) (addIdx_ne_nil _ _)
        obtain ⟨r', hr', hrr⟩ := (addIdx_has s p.1.2).2 r hr
        have hj' : j' < s := by have := hfirst r' hr'; omega
        have hsl : s < args.length := (List.getElem?_eq_some_iff.1 hx).1
        have hlev : ∃ p' ∈ prev, p'.1 = (p.1.1, α) := by
          refine (hl.keys _).2 ⟨hp1, hα, fun q hq => ?_, ?_⟩
          · obtain ⟨r2, hr2, hq2⟩ := hsub q hq
            rcases addIdx_mem hr2 with h4 | ⟨r3, hr3, h4⟩
            · omega
            · have := hp3 r3 hr3; omega
          · have := congrArg degree he
            rw [addIdx_degree, addIdx_degree] at this
            simp only; omega
        obtain ⟨p', hp', hkey⟩ := hlev
        obtain ⟨q', hq', hk'⟩ := h3 p' hp' j' hj' (by omega)
        refine hnew q' hq' ?_
        rw [hk', hR _ _ _ _ hpq, hkey, ← he]
    · rcases Nat.lt_or_ge j s with hlt | hge
      · obtain ⟨q, hq, he⟩ := h3 p hp j hlt hja
        exact ⟨q, g3 q hq, he⟩
      · obtain rfl : j = s := by omega
        obtain ⟨q, hq, hpq⟩ := forall₂_mem_left hns hp
        obtain ⟨q', hq', he⟩ := g4 q hq
        exact ⟨q', hq', by rw [he, hR _ _ _ _ hpq]⟩

/-- From the order one on there are not less derivatives than arguments. -/
theorem Level.many {cur : Nat} (hl : Level nouts args.length cur prev) (hc : 0 < cur) (hn : 0 < nouts) :
    args.length ≤ prev.length := by
  have hsub : (List.range args.length).map (fun j => ((0, [(j, cur)]) : SIdx)) ⊆ prev.map (·.1) := by
    intro v hv
    obtain ⟨j, hj, rfl⟩ := List.mem_map.1 hv
    rw [List.mem_range] at hj
    obtain ⟨p, hp, he⟩ := (hl.keys (0, [(j, cur)])).2 ⟨hn, ⟨by simp, by simp; omega⟩, by simpa using hj, by simp [degree]⟩
    exact List.mem_map.2 ⟨p, hp, he⟩
  have hnd : ((List.range args.length).map (fun j => ((0, [(j, cur)]) : SIdx))).Nodup :=
    List.Nodup.map (fun a b h => by simpa using h) List.nodup_range
  simpa using (hnd.subperm hsub).length_le

end Heyoka.AD
