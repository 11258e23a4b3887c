import Verif.Proofs.Refs
import Verif.Model.StdLib

/-!
# C42–C48: what a set contains, in which order it is updated, and what dropping does

`L` is an arbitrary library of features satisfying what the library must satisfy to compile (`Lib.Ok`); the
statistics library `stdLib` does (`stdLib_ok`).  `ord` is the order in which the compile-time maps are iterated;
nothing is assumed about it but that it only reorders.
-/

set_option linter.unusedSectionVars false

namespace Acc

variable {F : Type} [DecidableEq F] {L : Lib F}

namespace Lib

theorem accumulators_perm (w : Bool) {ord : List (Tag F) → List (Tag F)} (hord : ∀ l, (ord l).Perm l)
    (req : List (Tag F)) : (L.accumulators w ord req).Perm (L.withDeps w ord req) :=
  (quickSort_perm _ _ le_rfl).trans (hord _)

end Lib

section closure
variable (hL : L.Ok) (w : Bool) {ord : List (Tag F) → List (Tag F)} (hord : ∀ l, (ord l).Perm l)
  (req : List (Tag F))
include hord

include hL in
/-- C42, uniqueness: no two accumulators of a set provide the same feature. -/
theorem C42_unique : ((L.accumulators w ord req).map L.tkey).Nodup := by
  have := (Lib.withDeps_spec hL w hord req).2.1
  exact ((Lib.accumulators_perm w hord req).map _).nodup_iff.2 this

include hL in
/-- C43: of the requested variants of a feature the first listed is installed, wherever it stands in the list and
whatever other features depend on. -/
theorem C43_first_wins {r : Tag F} (hr : Spec.FirstOfKind L (L.asList w req) r) :
    r ∈ L.accumulators w ord req := by
  rw [(Lib.accumulators_perm w hord req).mem_iff]
  exact (Lib.withDeps_spec hL w hord req).1.subset (((Lib.featureMap_spec w req).2 r).2 hr)

include hL in
/-- C43, consequence: it is the only one; a default dependency or a later variant is not. -/
theorem C43_others_lose {r e : Tag F} (hr : Spec.FirstOfKind L (L.asList w req) r)
    (he : e ∈ L.accumulators w ord req) (hk : L.tkey e = L.tkey r) : e = r :=
  List.inj_on_of_nodup_map (C42_unique hL w hord req) he (C43_first_wins hL w hord req hr) hk

/-- Every requested feature has a first of its kind. -/
theorem firstOfKind_exists {l : List (Tag F)} {t : Tag F} (ht : t ∈ l) :
    ∃ r, Spec.FirstOfKind L l r ∧ L.tkey r = L.tkey t := by
  clear hord
  induction l with
  | nil => simp at ht
  | cons a l ih =>
    by_cases e : L.tkey a = L.tkey t
    · exact ⟨a, ⟨[], l, rfl, by simp⟩, e⟩
    · rcases List.mem_cons.1 ht with rfl | ht
      · exact absurd rfl e
      · obtain ⟨r, ⟨x, y, rfl, hx⟩, hr⟩ := ih ht
        refine ⟨r, ⟨a :: x, y, rfl, ?_⟩, hr⟩
        intro q hq
        rcases List.mem_cons.1 hq with rfl | hq
        · rw [hr]; exact e
        · exact hx q hq

include hL in
/-- C42, completeness: every requested feature, and every direct or indirect dependency of an installed requested
feature, is provided by exactly one accumulator of the set. -/
theorem C42_closure :
    (∀ t ∈ L.asList w req, ∃! e, e ∈ L.accumulators w ord req ∧ L.tkey e = L.tkey t) ∧
    (∀ r, Spec.FirstOfKind L (L.asList w req) r → ∀ d, Spec.Needs L w r d →
      ∃! e, e ∈ L.accumulators w ord req ∧ L.tkey e = L.tkey d) := by
  have huniq : ∀ k, (∃ e ∈ L.accumulators w ord req, L.tkey e = k) →
      ∃! e, e ∈ L.accumulators w ord req ∧ L.tkey e = k := by
    rintro k ⟨e, he, hk⟩
    exact ⟨e, ⟨he, hk⟩, fun e' he' =>
      List.inj_on_of_nodup_map (C42_unique hL w hord req) he'.1 he (he'.2.trans hk.symm)⟩
  refine ⟨fun t ht => huniq _ ?_, fun r hr d hd => huniq _ ?_⟩
  · obtain ⟨r, hr, hk⟩ := firstOfKind_exists (L := L) hord ht
    exact ⟨r, C43_first_wins hL w hord req hr, hk⟩
  · obtain ⟨e, he, hk⟩ := (Lib.withDeps_spec hL w hord req).2.2.2 r
      (((Lib.featureMap_spec w req).2 r).2 hr) d hd
    exact ⟨e, (Lib.accumulators_perm w hord req).mem_iff.2 he, hk⟩

include hL in
/-- C42, minimality: nothing else is installed.  Every accumulator is a requested feature (the first listed of its
kind) or one of the declared dependencies of such a feature. -/
theorem C42_nothing_else {e : Tag F} (he : e ∈ L.accumulators w ord req) :
    ∃ r, Spec.FirstOfKind L (L.asList w req) r ∧ (e = r ∨ Spec.Needs L w r e) := by
  rw [(Lib.accumulators_perm w hord req).mem_iff] at he
  obtain ⟨r, hr, h⟩ := (Lib.withDeps_spec hL w hord req).2.2.1 e he
  exact ⟨r, ((Lib.featureMap_spec w req).2 r).1 hr, h⟩

include hL in
/-- C46: a feature with an accumulator in the set is found, through whatever tag it is extracted. -/
theorem C46_finds {e f : Tag F} (he : e ∈ L.accumulators w ord req) (hk : L.tkey f = L.tkey e) :
    L.find (L.accumulators w ord req) f = some e :=
  Lib.find_eq (C42_unique hL w hord req) he hk

include hL in
/-- C46: hence every requested feature and every dependency of a requested feature can be extracted, through the
plain, the weighted or the droppable tag alike; what is found provides that feature. -/
theorem C46_extracts {t : Tag F} (f : F) (ht : t ∈ L.asList w req) (hf : L.key f = L.tkey t) (b b' : Bool) :
    ∃ e ∈ L.accumulators w ord req, L.tkey e = L.tkey t ∧
      L.find (L.accumulators w ord req) ⟨f, b⟩ = some e ∧
      L.find (L.accumulators w ord req) ⟨L.weighted f, b'⟩ = some e ∧
      L.find (L.accumulators w ord req) ⟨L.key f, b⟩ = some e := by
  obtain ⟨e, ⟨he, hk⟩, -⟩ := (C42_closure hL w hord req).1 t ht
  refine ⟨e, he, hk, ?_, ?_, ?_⟩ <;> refine C46_finds hL w hord req he ?_
  · exact hf.trans hk.symm
  · exact (hL.weighted_key f).trans (hf.trans hk.symm)
  · exact (hL.idem f).trans (hf.trans hk.symm)

/-! ## Update order -/

/-- Ancestors of ancestors are ancestors, as long as the abstract feature's default provider is meant. -/
theorem ancestor_trans {f g h : F} (h1 : Spec.Ancestor L f g) (h2 : Spec.Ancestor L g h) :
    Spec.Ancestor L f h := by
  clear hord
  induction h1 with
  | direct hd => exact .default hd h2
  | dep hd _ ih => exact .dep hd (ih h2)
  | default hd _ ih => exact .default hd (ih h2)

include hL in
/-- C44, for one pair: if accumulator `u` depends on the feature `t` provides, `t` is updated before `u`, provided
that every accumulator known to depend on what `u` provides is also known to depend on what `t` provides.
"Known" (`Spec.Ancestor`) is what the type of a feature says: the dependencies it declares, with those of the
declared and of the default providers. -/
theorem C44_pair_partial {u t : Tag F} (hu : u ∈ L.accumulators w ord req) (ht : t ∈ L.accumulators w ord req)
    (hdep : Spec.Ancestor L u.base (L.tkey t))
    (hsep : ∀ q ∈ L.accumulators w ord req, Spec.Ancestor L q.base (L.tkey u) →
      Spec.Ancestor L q.base (L.tkey t)) :
    Spec.Before (L.accumulators w ord req) t u := by
  have hrank := Lib.ancestor_rank hL hdep
  have hne : u ≠ t := by rintro rfl; exact absurd hrank (lt_irrefl _)
  have hmem : ∀ x, x ∈ L.accumulators w ord req ↔ x ∈ ord (L.withDeps w ord req) := fun x =>
    (quickSort_perm _ _ le_rfl).mem_iff
  refine quickSort_before (pred := fun x y => L.dependentOn y x) hne ?_ ?_ _ _ le_rfl
    ((hmem u).1 hu) ((hmem t).1 ht) ?_
  · simpa [Lib.dependentOn, Lib.mem_bases hL] using hdep
  · simp only [Lib.dependentOn, Lib.mem_bases hL, decide_eq_false_iff_not]
    intro hc
    have := Lib.ancestor_rank hL hc
    simp only [Lib.tkey] at this hrank
    omega
  · intro q hq hq'
    simp only [Lib.dependentOn, Lib.mem_bases hL, decide_eq_true_eq] at hq' ⊢
    exact hsep q ((hmem q).2 hq) hq'

/-- The condition under which the sort is sound: whoever is known to depend on the feature of an installed
accumulator is known to depend on everything that accumulator depends on. -/
def Compatible (L : Lib F) (S : List (Tag F)) : Prop :=
  ∀ p ∈ S, ∀ a ∈ S, Spec.Ancestor L p.base (L.tkey a) → ∀ g, Spec.Ancestor L a.base g → Spec.Ancestor L p.base g

omit hord in
theorem uses_ancestor {S : List (Tag F)} (hc : Compatible L S) {u t : Tag F} (hu : u ∈ S)
    (h : Spec.Uses L S u t) : Spec.Ancestor L u.base (L.tkey t) := by
  induction h with
  | @direct u t d _ hd e =>
    rw [← e]
    exact .direct hd
  | @step u a t d ha hd e _ ih =>
    refine hc u hu a ha ?_ _ (ih ha)
    rw [← e]
    exact .direct hd

omit hord in
theorem uses_mem {S : List (Tag F)} {u t : Tag F} (h : Spec.Uses L S u t) : t ∈ S := by
  induction h with
  | direct ht => exact ht
  | step _ _ _ _ ih => exact ih

include hL in
/-- C44: every accumulator is updated after all accumulators of the set it uses, directly or through others.
Partial: for sets in which the installed variants declare no dependency that their dependants cannot know
(`Compatible`).  `C44_fails` shows that the restriction is needed; `C44_std`, `C44_std_weighted` that it holds for
all but a few features of the library. -/
theorem C44_order_partial (hc : Compatible L (L.accumulators w ord req)) :
    Spec.Ordered L (L.accumulators w ord req) := by
  intro u hu t ht h
  have hanc := uses_ancestor hc hu h
  exact C44_pair_partial hL w hord req hu ht hanc fun q hq hq' => hc q hq u hu hq' _ hanc

end closure

/-! ## Reference counts -/

section drop
variable (hL : L.Ok) (w : Bool) {ord : List (Tag F) → List (Tag F)} (hord : ∀ l, (ord l).Perm l)
  (req : List (Tag F))

/-- `drop<f>` is legal (`doc/accumulators.qbk:575-678`): `t` is the accumulator of the set providing `f`, the
feature was requested, and it is droppable. -/
def LegalDrop (L : Lib F) (S req : List (Tag F)) (f t : Tag F) : Prop :=
  t ∈ S ∧ L.tkey f = L.tkey t ∧ Spec.Mentions L req (L.tkey t) ∧ t.drop = true

/-- The feature's default provider declares no dependency that `t` does not declare. -/
def CoversDefault (L : Lib F) (t : Tag F) : Prop :=
  ∀ d ∈ L.deps (L.tkey t), ∃ d' ∈ L.deps t.base, L.tkey d' = L.tkey d

/-- `t` declares no dependency that the feature's default provider does not declare. -/
def CoveredByDefault (L : Lib F) (t : Tag F) : Prop :=
  ∀ d ∈ L.deps t.base, ∃ d' ∈ L.deps (L.tkey t), L.tkey d' = L.tkey d

theorem perm_map_sum {β : Type} {l l' : List β} (h : l.Perm l') (f : β → ℕ) : (l.map f).sum = (l'.map f).sum :=
  (h.map f).sum_eq

/-- The counts of the accumulators of the users, split into those dropped and the rest. -/
theorem users_split {S : List (Tag F)} (hnd : (S.map L.tkey).Nodup) (req : List (Tag F)) {fs : List (Tag F)}
    (hfs : (fs.map L.tkey).Nodup) {prov : Tag F → Tag F} (hp : ∀ f ∈ fs, LegalDrop L S req f (prov f)) :
    (L.visitIf S req).Perm (fs.map prov ++ (L.visitIf S req).filter fun u => decide (L.tkey u ∉ fs.map L.tkey)) := by
  have hndS : S.Nodup := List.Nodup.of_map _ hnd
  have hU : (L.visitIf S req).Nodup := hndS.filter _
  have hprov : (fs.map prov).Nodup := by
    have : ((fs.map prov).map L.tkey).Nodup := by
      rw [List.map_map]
      have e : fs.map (L.tkey ∘ prov) = fs.map L.tkey :=
        List.map_congr_left fun f hf => ((hp f hf).2.1).symm
      rwa [e]
    exact List.Nodup.of_map _ this
  rw [List.perm_ext_iff_of_nodup hU]
  · intro a
    rw [List.mem_append, List.mem_map, List.mem_filter]
    constructor
    · intro ha
      by_cases hk : L.tkey a ∈ fs.map L.tkey
      · left
        obtain ⟨f, hf, e⟩ := List.mem_map.1 hk
        obtain ⟨h1, h2, -⟩ := hp f hf
        exact ⟨f, hf, List.inj_on_of_nodup_map hnd h1 (Lib.mem_visitIf.1 ha).1 (h2.symm.trans e)⟩
      · right
        exact ⟨ha, by simpa using hk⟩
    · rintro (⟨f, hf, rfl⟩ | ⟨ha, -⟩)
      · obtain ⟨h1, h2, ⟨r, hr, hk⟩, h4⟩ := hp f hf
        exact Lib.mem_visitIf.2 ⟨h1, r, hr, hk⟩
      · exact ha
  · rw [List.nodup_append]
    refine ⟨hprov, hU.filter _, ?_⟩
    intro a ha b hb e
    subst e
    obtain ⟨f, hf, rfl⟩ := List.mem_map.1 ha
    have := (List.mem_filter.1 hb).2
    simp only [decide_eq_true_eq] at this
    exact this (List.mem_map.2 ⟨f, hf, (hp f hf).2.1⟩)

include hL hord in
/-- C48, safety: dropping requested droppable features, each at most once and in any order, never fails the
assertion on the counts, and afterwards every droppable accumulator used by a requested feature that has not been
dropped (or providing it) still has a positive count, that is, is still updated.
Partial: for dropped features whose accumulators declare the dependencies of the default provider;
`C48_fails` shows why. -/
theorem C48_kept_partial (fs : List (Tag F)) (hfs : (fs.map L.tkey).Nodup) (prov : Tag F → Tag F)
    (hp : ∀ f ∈ fs, LegalDrop L (L.accumulators w ord req) req f (prov f) ∧ CoversDefault L (prov f)) :
    ∃ c, fs.foldlM (L.dropFeature (L.accumulators w ord req))
        (L.initRefs (L.accumulators w ord req) req) = .val c ∧
      ∀ u ∈ L.accumulators w ord req, Spec.Mentions L req (L.tkey u) → ¬ Spec.Mentions L fs (L.tkey u) →
        ∀ t, (u = t ∨ Spec.Uses L (L.accumulators w ord req) u t) → t.drop = true → 0 < c (L.tkey t) := by
  have hnd := C42_unique hL w hord req
  revert hp hnd
  generalize L.accumulators w ord req = S
  intro hp hnd
  have hsplit := users_split hnd req hfs (prov := prov) fun f hf => (hp f hf).1
  have hinit : ∀ k, L.initRefs S req k = (fs.map fun f => Lib.P L S (prov f) k).sum
      + (((L.visitIf S req).filter fun u => decide (L.tkey u ∉ fs.map L.tkey)).map
          fun u => Lib.P L S u k).sum := by
    intro k
    rw [Lib.initRefs_eq, perm_map_sum hsplit, List.map_append, List.sum_append, List.map_map]
    rfl
  have hQ : ∀ k, (fs.map fun f => Lib.Q L S (prov f) k).sum ≤ (fs.map fun f => Lib.P L S (prov f) k).sum :=
    fun k => Lib.sum_le fun f hf => Lib.Q_le_P hL S (hp f hf).1.2.2.2 (hp f hf).2 k
  refine ⟨_, Lib.drops_eq hnd fs prov (fun f hf => ⟨(hp f hf).1.1, (hp f hf).1.2.2.2, (hp f hf).1.2.1⟩) _ ?_, ?_⟩
  · intro k
    rw [hinit k]
    have := hQ k
    omega
  · rintro u hu ⟨r, hr, hk⟩ hnf t ht htd
    have hpos := Lib.P_pos hL htd ht
    have hmem : u ∈ (L.visitIf S req).filter fun u => decide (L.tkey u ∉ fs.map L.tkey) := by
      rw [List.mem_filter]
      refine ⟨Lib.mem_visitIf.2 ⟨hu, r, hr, hk⟩, ?_⟩
      simp only [decide_eq_true_eq, List.mem_map]
      rintro ⟨f, hf, e⟩
      exact hnf ⟨f, hf, e⟩
    have hle := List.single_le_sum (l := ((L.visitIf S req).filter fun u =>
      decide (L.tkey u ∉ fs.map L.tkey)).map fun u => Lib.P L S u (L.tkey t)) (by simp) _
      (List.mem_map.2 ⟨u, hmem, rfl⟩)
    rw [hinit]
    have := hQ (L.tkey t)
    omega

include hL hord in
/-- C48, release: once all requested features using an accumulator have been dropped, its count is zero.
Partial: for dropped features whose accumulators declare the same dependencies as the default provider and all of
whose accumulators are droppable. -/
theorem C48_released_partial (fs : List (Tag F)) (hfs : (fs.map L.tkey).Nodup) (prov : Tag F → Tag F)
    (hp : ∀ f ∈ fs, LegalDrop L (L.accumulators w ord req) req f (prov f) ∧ CoversDefault L (prov f) ∧
      CoveredByDefault L (prov f) ∧
      ∀ a, Spec.Uses L (L.accumulators w ord req) (prov f) a → a.drop = true)
    {c : F → ℕ} (hc : fs.foldlM (L.dropFeature (L.accumulators w ord req))
        (L.initRefs (L.accumulators w ord req) req) = .val c)
    {t : Tag F} (ht : t ∈ L.accumulators w ord req)
    (hall : ∀ u ∈ L.accumulators w ord req, Spec.Mentions L req (L.tkey u) →
      (u = t ∨ Spec.Uses L (L.accumulators w ord req) u t) → Spec.Mentions L fs (L.tkey u)) :
    c (L.tkey t) = 0 := by
  have hnd := C42_unique hL w hord req
  revert hp hnd hc ht hall
  generalize L.accumulators w ord req = S
  intro hp hc ht hall hnd
  have hsplit := users_split hnd req hfs (prov := prov) fun f hf => (hp f hf).1
  have hinit : ∀ k, L.initRefs S req k = (fs.map fun f => Lib.P L S (prov f) k).sum
      + (((L.visitIf S req).filter fun u => decide (L.tkey u ∉ fs.map L.tkey)).map
          fun u => Lib.P L S u k).sum := by
    intro k
    rw [Lib.initRefs_eq, perm_map_sum hsplit, List.map_append, List.sum_append, List.map_map]
    rfl
  have hQ : ∀ k, (fs.map fun f => Lib.Q L S (prov f) k).sum = (fs.map fun f => Lib.P L S (prov f) k).sum := by
    intro k
    congr 1
    refine List.map_congr_left fun f hf => ?_
    obtain ⟨h1, h2, h3, h4⟩ := hp f hf
    exact Lib.Q_eq_P hL S h1.2.2.2 h2 h3 h4 k
  have hd := Lib.drops_eq hnd fs prov
    (fun f hf => ⟨(hp f hf).1.1, (hp f hf).1.2.2.2, (hp f hf).1.2.1⟩) (L.initRefs S req) (by
      intro k
      rw [hinit k, hQ k]
      exact Nat.le_add_right _ _)
  rw [hc] at hd
  injection hd with hd
  rw [hd]
  dsimp only
  rw [hinit, hQ]
  have hzero : (((L.visitIf S req).filter fun u => decide (L.tkey u ∉ fs.map L.tkey)).map
      fun u => Lib.P L S u (L.tkey t)).sum = 0 := by
    refine List.sum_eq_zero fun x hx => ?_
    obtain ⟨u, hu, rfl⟩ := List.mem_map.1 hx
    obtain ⟨hu1, hu2⟩ := List.mem_filter.1 hu
    obtain ⟨huS, r, hr, hk⟩ := Lib.mem_visitIf.1 hu1
    refine Lib.P_zero hL hnd huS ht fun hcon => ?_
    obtain ⟨f, hf, e⟩ := hall u huS ⟨r, hr, hk⟩ hcon
    simp only [decide_eq_true_eq] at hu2
    exact hu2 (List.mem_map.2 ⟨f, hf, e⟩)
  omega

end drop

end Acc
