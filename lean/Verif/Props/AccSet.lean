import Verif.Proofs.AccSet
import Verif.Props.Framework

/-!
# C45, C47: results do not depend on the rest of the set; dropped accumulators are frozen

The accumulators are arbitrary (`Impl`); C45 needs that an accumulator looks only at itself and at what it
declares as dependencies, directly or through the accumulators providing them (`Spec.Local`).
-/

set_option linter.unusedSectionVars false

namespace Acc

variable {F σ A ρ : Type} [DecidableEq F] {L : Lib F}

/-! ## C47 -/

section frozen
variable (I : Impl F σ A) {S : List (Tag F)} (hnd : (S.map L.tkey).Nodup)
include hnd

theorem step_frozen {t : Tag F} (ht : t ∈ S) (hd : t.drop = true) {s s' : SetState F σ} {op : SetOp F A}
    (h0 : s.refs (L.tkey t) = 0) (h : L.step I S s op = .val s') :
    s'.refs (L.tkey t) = 0 ∧ s'.env (L.tkey t) = s.env (L.tkey t) := by
  cases op with
  | push a =>
    rw [Lib.step] at h
    injection h with h
    subst h
    refine ⟨h0, ?_⟩
    obtain ⟨pre, post, rfl⟩ := List.append_of_mem ht
    dsimp only
    rw [Lib.pushEnv_at I hnd, hd, h0]
    simp
  | drop f =>
    rw [Lib.step] at h
    cases hc : L.dropFeature S s.refs f with
    | val c =>
      rw [hc] at h
      change Res.val _ = Res.val _ at h
      injection h with h
      subst h
      refine ⟨?_, rfl⟩
      have := Lib.dropFeature_le hc (L.tkey t)
      dsimp only
      omega
    | nonfinite => rw [hc] at h; cases h
    | thrown => rw [hc] at h; cases h
    | ub => rw [hc] at h; cases h
    | diverges => rw [hc] at h; cases h

/-- C47: once the count of a droppable accumulator is zero, no further pushes and drops change its state, and the
count stays zero. -/
theorem C47_frozen {t : Tag F} (ht : t ∈ S) (hd : t.drop = true) (ops : List (SetOp F A)) {s s' : SetState F σ}
    (h0 : s.refs (L.tkey t) = 0) (h : L.runOps I S s ops = .val s') :
    s'.refs (L.tkey t) = 0 ∧ s'.env (L.tkey t) = s.env (L.tkey t) := by
  induction ops generalizing s with
  | nil =>
    rw [Lib.runOps, List.foldlM_nil] at h
    change Res.val _ = Res.val _ at h
    injection h with h
    subst h
    exact ⟨h0, rfl⟩
  | cons op ops ih =>
    rw [Lib.runOps, List.foldlM_cons] at h
    cases hs : L.step I S s op with
    | val s1 =>
      rw [hs, Res.val_bind] at h
      obtain ⟨h1, h2⟩ := step_frozen I hnd ht hd h0 hs
      obtain ⟨h3, h4⟩ := ih h1 h
      exact ⟨h3, h4.trans h2⟩
    | nonfinite => rw [hs] at h; cases h
    | thrown => rw [hs] at h; cases h
    | ub => rw [hs] at h; cases h
    | diverges => rw [hs] at h; cases h

/-- C47, the other half: as long as the count is positive (or the accumulator is not droppable), a push updates
the accumulator, once, by its own update function; the accumulators before it in the list have been updated
already and the others not yet. -/
theorem C47_alive {pre post : List (Tag F)} {t : Tag F} (hS : S = pre ++ t :: post) {s : SetState F σ}
    (halive : t.drop = true → s.refs (L.tkey t) ≠ 0) (a : A) :
    ∃ s' e, L.step I S s (.push a) = .val s' ∧
      s'.env (L.tkey t) = some (t.base, I.upd t.base e a) ∧ s'.refs = s.refs ∧
      (∀ p ∈ pre, e (L.tkey p) = s'.env (L.tkey p)) ∧
      (∀ k, k ∉ pre.map L.tkey → e k = s.env k) := by
  subst hS
  refine ⟨_, L.pushEnv I pre s.refs s.env a, rfl, ?_, rfl, ?_, ?_⟩
  · dsimp only
    rw [Lib.pushEnv_at I hnd, if_neg]
    simpa using halive
  · intro p hp
    dsimp only
    rw [Lib.pushEnv_append, Lib.pushEnv_of_notMem I (t :: post)]
    rw [List.map_append, List.nodup_append] at hnd
    exact fun hc => hnd.2.2 _ (List.mem_map.2 ⟨p, hp, rfl⟩) _ hc rfl
  · intro k hk
    exact Lib.pushEnv_of_notMem I pre s.refs s.env a hk

end frozen

/-! ## C45 -/

/-- Every dependency declared by an accumulator of the set is provided by the set. -/
def Complete (L : Lib F) (S : List (Tag F)) : Prop :=
  ∀ t ∈ S, ∀ d ∈ L.deps t.base, ∃ e ∈ S, L.tkey e = L.tkey d

theorem asList_mem_key (hL : L.Ok) (w : Bool) {t d : Tag F} (hd : d ∈ L.deps t.base) :
    ∃ d' ∈ L.asList w (L.tdeps t), L.tkey d' = L.tkey d := by
  have h1 : ∃ d1 ∈ L.tdeps t, L.tkey d1 = L.tkey d := by
    have := (Lib.tkey_mem_tdeps (L := L) t (L.tkey d)).2 ⟨d, hd, rfl⟩
    obtain ⟨d1, h1, h2⟩ := List.mem_map.1 this
    exact ⟨d1, h1, h2⟩
  obtain ⟨d1, h1, h2⟩ := h1
  unfold Lib.asList
  cases w with
  | false => exact ⟨d1, h1, h2⟩
  | true =>
    refine ⟨⟨L.weighted d1.base, d1.drop⟩, List.mem_map.2 ⟨d1, h1, rfl⟩, ?_⟩
    exact (hL.weighted_key _).trans h2

theorem needs_snoc {w : Bool} {r t d : Tag F} (h : Spec.Needs L w r t) (hd : d ∈ L.asList w (L.tdeps t)) :
    Spec.Needs L w r d := by
  induction h with
  | direct h1 => exact .step h1 (.direct hd)
  | step h1 _ ih => exact .step h1 (ih hd)

/-- Sets built from a request are complete. -/
theorem accumulators_complete (hL : L.Ok) (w : Bool) {ord : List (Tag F) → List (Tag F)}
    (hord : ∀ l, (ord l).Perm l) (req : List (Tag F)) : Complete L (L.accumulators w ord req) := by
  intro t ht d hd
  obtain ⟨d', hd', hk⟩ := asList_mem_key hL w hd
  obtain ⟨r, hr, h⟩ := C42_nothing_else hL w hord req ht
  have hneeds : Spec.Needs L w r d' := by
    rcases h with rfl | h
    · exact .direct hd'
    · exact needs_snoc h hd'
  obtain ⟨e, ⟨he, hke⟩, -⟩ := (C42_closure hL w hord req).2 r hr d' hneeds
  exact ⟨e, he, hke.trans hk⟩

/-- What is visible from an accumulator of a complete set is provided by accumulators it uses. -/
theorem visible_uses {S : List (Tag F)} (hcomp : Complete L S) {env : Env F σ}
    (hseat : Lib.Seated L S env) {f k : F} (h : Spec.Visible L env f k) :
    ∀ t ∈ S, t.base = f → ∃ e ∈ S, L.tkey e = k ∧ Spec.Uses L S t e := by
  induction h with
  | @dep f d hd =>
    rintro t ht rfl
    obtain ⟨e, he, hk⟩ := hcomp t ht d hd
    exact ⟨e, he, hk, .direct he hd hk.symm⟩
  | @via f g k d s hd henv _ ih =>
    rintro t ht rfl
    obtain ⟨a, ha, hk⟩ := hcomp t ht d hd
    obtain ⟨s', hs'⟩ := hseat a ha
    rw [hk, henv] at hs'
    injection hs' with hs'
    injection hs' with hg _
    obtain ⟨e, he, hke, hue⟩ := ih a ha hg.symm
    exact ⟨e, he, hke, .step ha hd hk.symm hue⟩

/-- In two sets, `u` is installed with the same implementation, and so is everything it uses. -/
def SameBelow (L : Lib F) (S S' : List (Tag F)) (u u' : Tag F) : Prop :=
  u ∈ S ∧ u' ∈ S' ∧ u'.base = u.base ∧ ∀ t, Spec.Uses L S u t → ∃ t' ∈ S', t'.base = t.base

theorem SameBelow.uses {S S' : List (Tag F)} {u u' t : Tag F} (h : SameBelow L S S' u u')
    (ht : Spec.Uses L S u t) : ∃ t', Spec.Uses L S' u' t' ∧ SameBelow L S S' t t' := by
  obtain ⟨hu, hu', hb, hs⟩ := h
  clear hu
  induction ht generalizing u' with
  | @direct u t d ht hd e =>
    obtain ⟨t', ht', hb'⟩ := hs t (.direct ht hd e)
    have hk : L.tkey d = L.tkey t' := by rw [e, Lib.tkey, Lib.tkey, hb']
    exact ⟨t', .direct ht' (by rw [hb]; exact hd) hk, ht, ht', hb', fun x hx => hs x (.step ht hd e hx)⟩
  | @step u a t d ha hd e _ ih =>
    obtain ⟨a', ha', hb'⟩ := hs a (.direct ha hd e)
    have hk : L.tkey d = L.tkey a' := by rw [e, Lib.tkey, Lib.tkey, hb']
    obtain ⟨t', h1, h2⟩ := ih ha' hb' fun x hx => hs x (.step ha hd e hx)
    exact ⟨t', .step ha' (by rw [hb]; exact hd) hk h1, h2⟩

/-- No accumulator of `u` (itself or one it uses) is dropped. -/
def AllAlive (L : Lib F) (S : List (Tag F)) (refs : F → ℕ) (u : Tag F) : Prop :=
  ∀ t, (t = u ∨ Spec.Uses L S u t) → t.drop = true → refs (L.tkey t) ≠ 0

section indep
variable {I : Impl F σ A} {S S' : List (Tag F)} (hL : L.Ok)
  (hnd : (S.map L.tkey).Nodup) (hnd' : (S'.map L.tkey).Nodup)
  (hcomp : Complete L S) (hord : Spec.Ordered L S) (hord' : Spec.Ordered L S')
  (hloc : ∀ a, Spec.Local L fun f env => I.upd f env a)

theorem uses_trans {u t e : Tag F} (h : Spec.Uses L S u t) (h' : Spec.Uses L S t e) : Spec.Uses L S u e := by
  induction h with
  | direct ht hd e => exact .step ht hd e h'
  | step ha hd e _ ih => exact .step ha hd e (ih h')

theorem uses_rank (hL : L.Ok) {u t : Tag F} (h : Spec.Uses L S u t) :
    L.rank (L.tkey t) < L.rank (L.tkey u) := by
  induction h with
  | @direct u t d _ hd e => rw [← e]; exact hL.down _ d hd
  | @step u a t d _ hd e _ ih => exact ih.trans (by rw [← e]; exact hL.down _ d hd)

/-- The two states agree on `u` and on everything it uses. -/
def AgreeBelow (L : Lib F) (S : List (Tag F)) (u : Tag F) (env env' : Env F σ) : Prop :=
  ∀ t, (t = u ∨ Spec.Uses L S u t) → env (L.tkey t) = env' (L.tkey t)

include hL hnd hnd' hcomp hord hord' hloc in
theorem push_agree {refs refs' : F → ℕ} {env env' : Env F σ} (hseat : Lib.Seated L S env) (a : A) (u : Tag F) :
    ∀ u', SameBelow L S S' u u' → AllAlive L S refs u → AllAlive L S' refs' u' → AgreeBelow L S u env env' →
      L.pushEnv I S refs env a (L.tkey u) = L.pushEnv I S' refs' env' a (L.tkey u) := by
  induction u using Lib.rank_induction (L := L) with
  | h u ih =>
    intro u' hsame hal hal' hag
    obtain ⟨hu, hu', hb, -⟩ := id hsame
    have hk : L.tkey u = L.tkey u' := by rw [Lib.tkey, Lib.tkey, hb]
    obtain ⟨pre, post, hS⟩ := List.append_of_mem hu
    obtain ⟨pre', post', hS'⟩ := List.append_of_mem hu'
    -- an accumulator used by `u` stands before `u`
    have hbefore : ∀ {S : List (Tag F)} {pre post : List (Tag F)} {u t : Tag F}, (S.map L.tkey).Nodup →
        S = pre ++ u :: post → Spec.Before S t u → t ∈ pre := by
      rintro S pre post u t hn rfl ⟨x, y, z, e⟩
      have hn' : (pre ++ u :: post).Nodup := List.Nodup.of_map _ hn
      have e1 : pre ++ u :: post = (x ++ t :: y) ++ u :: z := by rw [e]
      have hpre : u ∉ pre := by
        intro h
        rw [List.nodup_append] at hn'
        exact hn'.2.2 u h u (by simp) rfl
      have hpre2 : u ∉ x ++ t :: y := by
        intro h
        rw [e1, List.nodup_append] at hn'
        exact hn'.2.2 u h u (by simp) rfl
      rw [List.append_eq_append_iff] at e1
      rcases e1 with ⟨as, h1, h2⟩ | ⟨bs, h1, h2⟩
      · cases as with
        | nil => rw [List.append_nil] at h1; rw [← h1]; simp
        | cons c as =>
          simp only [List.cons_append, List.cons.injEq] at h2
          exact absurd (by rw [h1, h2.1]; simp) hpre2
      · cases bs with
        | nil => rw [List.append_nil] at h1; rw [h1]; simp
        | cons c bs =>
          simp only [List.cons_append, List.cons.injEq] at h2
          exact absurd (by rw [h1, h2.1]; simp) hpre
    -- the values of the used accumulators agree after the push
    have hused : ∀ t t', Spec.Uses L S u t → Spec.Uses L S' u' t' → SameBelow L S S' t t' →
        L.pushEnv I S refs env a (L.tkey t) = L.pushEnv I S' refs' env' a (L.tkey t) := by
      intro t t' ht ht' hst
      refine ih t (uses_rank hL ht) t' hst (fun x hx => hal x ?_) (fun x hx => hal' x ?_) fun x hx => hag x ?_
      · rcases hx with rfl | hx
        · exact Or.inr ht
        · exact Or.inr (uses_trans ht hx)
      · rcases hx with rfl | hx
        · exact Or.inr ht'
        · exact Or.inr (uses_trans ht' hx)
      · rcases hx with rfl | hx
        · exact Or.inr ht
        · exact Or.inr (uses_trans ht hx)
    -- a prefix has the same values as the whole list for its members
    have hpre : ∀ {S pre post : List (Tag F)} {t : Tag F} (refs : F → ℕ) (env : Env F σ),
        (S.map L.tkey).Nodup → S = pre ++ post → t ∈ pre →
        L.pushEnv I pre refs env a (L.tkey t) = L.pushEnv I S refs env a (L.tkey t) := by
      rintro S pre post t refs env hn rfl ht
      rw [Lib.pushEnv_append, Lib.pushEnv_of_notMem I post]
      rw [List.map_append, List.nodup_append] at hn
      exact fun hc => hn.2.2 _ (List.mem_map.2 ⟨t, ht, rfl⟩) _ hc rfl
    have e1 : L.pushEnv I S refs env a (L.tkey u)
        = some (u.base, I.upd u.base (L.pushEnv I pre refs env a) a) := by
      rw [hS, Lib.pushEnv_at I (by rw [← hS]; exact hnd), if_neg]
      simpa using hal u (Or.inl rfl)
    have e2 : L.pushEnv I S' refs' env' a (L.tkey u)
        = some (u.base, I.upd u.base (L.pushEnv I pre' refs' env' a) a) := by
      rw [hk, hS', Lib.pushEnv_at I (by rw [← hS']; exact hnd'), if_neg, hb]
      simpa using hal' u' (Or.inl rfl)
    rw [e1, e2]
    have hself : L.tkey u ∉ pre.map L.tkey := by
      have hn := hnd
      rw [hS, List.map_append, List.nodup_append] at hn
      exact fun hc => hn.2.2 _ hc _ (by simp) rfl
    have hself' : L.tkey u ∉ pre'.map L.tkey := by
      have hn := hnd'
      rw [hS', List.map_append, List.nodup_append] at hn
      exact fun hc => hn.2.2 _ hc _ (by simp [hk]) rfl
    have hseat' : Lib.Seated L S (L.pushEnv I pre refs env a) :=
      Lib.seated_pushEnv I hnd refs a hseat fun t ht => by rw [hS]; simp [ht]
    have := hloc a u.base (L.pushEnv I pre refs env a) (L.pushEnv I pre' refs' env' a) (by
        change L.pushEnv I pre refs env a (L.tkey u) = L.pushEnv I pre' refs' env' a (L.tkey u)
        rw [Lib.pushEnv_of_notMem I pre refs env a hself, Lib.pushEnv_of_notMem I pre' refs' env' a hself']
        exact hag u (Or.inl rfl)) (by
        intro k hvis
        obtain ⟨t, htS, rfl, ht⟩ := visible_uses hcomp hseat' hvis u hu rfl
        obtain ⟨t', ht', hst⟩ := hsame.uses ht
        have hkt : L.tkey t = L.tkey t' := by rw [Lib.tkey, Lib.tkey, hst.2.2.1]
        rw [hpre refs env hnd hS (hbefore hnd hS (hord u hu t htS ht)), hused t t' ht ht' hst, hkt,
          hpre refs' env' hnd' hS' (hbefore hnd' hS' (hord' u' hu' t' hst.2.1 ht'))])
    simp only at this
    rw [this]

include hL hnd hnd' hcomp hord hord' hloc in
theorem pushes_agree {refs refs' : F → ℕ} {u u' : Tag F} (hsame : SameBelow L S S' u u')
    (hal : AllAlive L S refs u) (hal' : AllAlive L S' refs' u') (xs : List A) :
    ∀ env env', Lib.Seated L S env → AgreeBelow L S u env env' →
      Lib.Seated L S (xs.foldl (L.pushEnv I S refs) env) ∧
      AgreeBelow L S u (xs.foldl (L.pushEnv I S refs) env) (xs.foldl (L.pushEnv I S' refs') env') := by
  induction xs with
  | nil => exact fun _ _ hseat hag => ⟨hseat, hag⟩
  | cons x xs ih =>
    intro env env' hseat hag
    refine ih _ _ (Lib.seated_pushEnv I hnd refs x hseat fun _ h => h) ?_
    rintro t (rfl | ht)
    · exact push_agree hL hnd hnd' hcomp hord hord' hloc hseat x t u' hsame hal hal' hag
    · obtain ⟨t', ht', hst⟩ := hsame.uses ht
      refine push_agree hL hnd hnd' hcomp hord hord' hloc hseat x t t' hst (fun y hy => hal y ?_)
        (fun y hy => hal' y ?_) fun y hy => hag y ?_
      · rcases hy with rfl | hy
        · exact Or.inr ht
        · exact Or.inr (uses_trans ht hy)
      · rcases hy with rfl | hy
        · exact Or.inr ht'
        · exact Or.inr (uses_trans ht' hy)
      · rcases hy with rfl | hy
        · exact Or.inr ht
        · exact Or.inr (uses_trans ht hy)

end indep

/-- The pushes of a history without drops. -/
theorem runOps_pushes (I : Impl F σ A) (S : List (Tag F)) (s : SetState F σ) (xs : List A) :
    L.runOps I S s (xs.map SetOp.push) = .val { s with env := xs.foldl (L.pushEnv I S s.refs) s.env } := by
  induction xs generalizing s with
  | nil => rfl
  | cons x xs ih =>
    rw [List.map_cons, Lib.runOps, List.foldlM_cons, Lib.step, Res.val_bind]
    exact ih _

/-- Nothing used by a requested feature is dropped initially. -/
theorem initRefs_alive (hL : L.Ok) {S req : List (Tag F)} {u v : Tag F} (hu : u ∈ S)
    (hreq : Spec.Mentions L req (L.tkey u)) (hv : v = u ∨ Spec.Uses L S u v) :
    AllAlive L S (L.initRefs S req) v := by
  intro t ht hd
  rw [Lib.initRefs_eq]
  obtain ⟨r, hr, hk⟩ := hreq
  have hut : u = t ∨ Spec.Uses L S u t := by
    rcases hv with rfl | hv
    · exact ht.imp Eq.symm id
    · rcases ht with rfl | ht
      · exact Or.inr hv
      · exact Or.inr (uses_trans hv ht)
  have hpos := Lib.P_pos hL hd hut
  have hle := List.single_le_sum (l := (L.visitIf S req).map fun u => Lib.P L S u (L.tkey t)) (by simp) _
    (List.mem_map.2 ⟨u, Lib.mem_visitIf.2 ⟨hu, r, hr, hk⟩, rfl⟩)
  omega

/-- C45: let a feature requested in two sets have the same accumulator in both, and let the accumulators it uses be
the same in both.  Then, whatever else the sets contain and in whatever order the features are listed, after any
stream of samples everything that can be computed from the feature (its state, its result) is the same.
Partial: for sets whose accumulators are updated in dependency order (`Compatible`, see C44). -/
theorem C45_independent_partial (hL : L.Ok) {I : Impl F σ A} (hloc : ∀ a, Spec.Local L fun f env => I.upd f env a)
    (w w' : Bool) {ord ord' : List (Tag F) → List (Tag F)} (hord : ∀ l, (ord l).Perm l)
    (hord' : ∀ l, (ord' l).Perm l) (req req' : List (Tag F))
    (hc : Compatible L (L.accumulators w ord req)) (hc' : Compatible L (L.accumulators w' ord' req'))
    {u u' : Tag F} (hsame : SameBelow L (L.accumulators w ord req) (L.accumulators w' ord' req') u u')
    (hreq : Spec.Mentions L req (L.tkey u)) (hreq' : Spec.Mentions L req' (L.tkey u))
    {obs : F → Env F σ → ρ} (hobs : Spec.Local L obs) (xs : List A) :
    ∃ s s', L.runOps I (L.accumulators w ord req) (L.construct I (L.accumulators w ord req) req)
          (xs.map SetOp.push) = .val s ∧
      L.runOps I (L.accumulators w' ord' req') (L.construct I (L.accumulators w' ord' req') req')
          (xs.map SetOp.push) = .val s' ∧
      s.env (L.tkey u) = s'.env (L.tkey u) ∧ obs u.base s.env = obs u.base s'.env := by
  have hnd := C42_unique hL w hord req
  have hnd' := C42_unique hL w' hord' req'
  have hcomp := accumulators_complete hL w hord req
  have hO := C44_order_partial hL w hord req hc
  have hO' := C44_order_partial hL w' hord' req' hc'
  revert hsame hnd hnd' hcomp hO hO'
  clear hc hc' hord hord'
  generalize L.accumulators w ord req = S
  generalize L.accumulators w' ord' req' = S'
  intro hsame hnd hnd' hcomp hO hO'
  have hk : L.tkey u = L.tkey u' := by rw [Lib.tkey, Lib.tkey, hsame.2.2.1]
  have hal := initRefs_alive hL hsame.1 hreq (Or.inl rfl)
  have hal' := initRefs_alive hL hsame.2.1 (by rw [← hk]; exact hreq') (Or.inl rfl)
  obtain ⟨hseat, hag⟩ := pushes_agree hL hnd hnd' hcomp hO hO' hloc hsame hal hal' xs
    (L.construct I S req).env (L.construct I S' req').env (Lib.seated_construct I hnd req) (by
      rintro t (rfl | ht)
      · rw [Lib.construct_at I hnd req hsame.1, hk, Lib.construct_at I hnd' req' hsame.2.1, hsame.2.2.1]
      · obtain ⟨t', ht', hst⟩ := hsame.uses ht
        have hkt : L.tkey t = L.tkey t' := by rw [Lib.tkey, Lib.tkey, hst.2.2.1]
        rw [Lib.construct_at I hnd req hst.1, hkt, Lib.construct_at I hnd' req' hst.2.1, hst.2.2.1])
  refine ⟨_, _, runOps_pushes I S _ xs, runOps_pushes I S' _ xs, hag u (Or.inl rfl), ?_⟩
  refine hobs u.base _ _ (hag u (Or.inl rfl)) fun k hvis => ?_
  obtain ⟨t, -, rfl, ht⟩ := visible_uses hcomp hseat hvis u hsame.1 rfl
  exact hag t (Or.inr ht)

end Acc
