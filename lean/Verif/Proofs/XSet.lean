import Verif.Model.XSet
import Verif.Proofs.Refine

/-!
# Accumulators that work together, some of them written to by others
-/

set_option linter.unusedSectionVars false

namespace Acc

variable {F σ A : Type} [DecidableEq F] {L : Lib F}

namespace Lib

theorem pushX_append (I : XImpl F σ A) (S S1 S2 : List (Tag F)) (refs : F → ℕ) (env : Env F σ) (a : A) :
    L.pushX I S refs (S1 ++ S2) env a = L.pushX I S refs S2 (L.pushX I S refs S1 env a) a := by
  simp [pushX, List.foldl_append]

theorem find_tag {S : List (Tag F)} (hnd : (S.map L.tkey).Nodup) {t : Tag F} (ht : t ∈ S) :
    (S.find? fun t' => decide (L.tkey t' = L.tkey t)) = some t := by
  rw [← find_eq hnd ht (f := t) rfl, find]
  congr 1
  funext t'
  rw [decide_eq_decide]
  exact eq_comm

/-- A visit of another accumulator. -/
theorem visitX_other (I : XImpl F σ A) {S : List (Tag F)} (hnd : (S.map L.tkey).Nodup) (refs : F → ℕ) (a : A)
    (env : Env F σ) {t t' : Tag F} (ht' : t' ∈ S) (h : L.tkey t ≠ L.tkey t') :
    L.visitX I S refs a env t (L.tkey t') =
      if t.drop && decide (refs (L.tkey t) = 0) then env (L.tkey t')
      else (env (L.tkey t')).map fun c => (c.1, I.assign t.base env a t' c.2) := by
  unfold visitX
  split
  · rfl
  · dsimp only
    rw [if_neg (Ne.symm h), find_tag hnd ht']

/-- Visits by accumulators that do not write into `t'`. -/
theorem pushX_quiet (I : XImpl F σ A) {S : List (Tag F)} (hnd : (S.map L.tkey).Nodup) (refs : F → ℕ) (a : A)
    {t' : Tag F} (ht' : t' ∈ S) (S' : List (Tag F)) (hn : L.tkey t' ∉ S'.map L.tkey)
    (hq : ∀ t ∈ S', ∀ env s, I.assign t.base env a t' s = s) (env : Env F σ) :
    L.pushX I S refs S' env a (L.tkey t') = env (L.tkey t') := by
  induction S' generalizing env with
  | nil => rfl
  | cons t S' ih =>
    rw [List.map_cons, List.mem_cons, not_or] at hn
    rw [pushX, List.foldl_cons, ← pushX, ih hn.2 (fun t ht => hq t (by simp [ht])),
      visitX_other I hnd refs a env ht' (Ne.symm hn.1)]
    split
    · rfl
    · cases env (L.tkey t') with
      | none => rfl
      | some c => simp [hq t (by simp)]

end Lib

/-- Nobody writes into `t`. -/
def Quiet (I : XImpl F σ A) (t : Tag F) : Prop := ∀ f env a s, I.assign f env a t s = s

/-- Only `u`, which `t` uses, writes into `t`, and the update of `t` itself does nothing. -/
structure Written (L : Lib F) (I : XImpl F σ A) (S : List (Tag F)) (t u : Tag F) : Prop where
  uses : Spec.Uses L S t u
  quiet : Quiet I u
  only : ∀ f env a s, f ≠ u.base → I.assign f env a t s = s
  idle : ∀ env a c, env (L.tkey t) = some c → I.upd t.base env a = c.2

/-- What an accumulator has to guarantee: its own update is right, or what is written into it is. -/
def StepOkX (L : Lib F) (I : XImpl F σ A) (S : List (Tag F)) (Good : F → List A → σ → Prop) (t : Tag F) : Prop :=
  Quiet I t ∧ StepOk L I.toImpl S Good t ∨
  ∃ u, Written L I S t u ∧ ∀ as a env s, env (L.tkey t) = some (t.base, s) → Good t.base as s →
    Holds L Good as env u → (∀ e, Spec.Uses L S u e → Holds L Good (as ++ [a]) env e) →
    Good t.base (as ++ [a]) (I.assign u.base env a t s)

section
variable {I : XImpl F σ A} {S : List (Tag F)} (hL : L.Ok) (hnd : (S.map L.tkey).Nodup) (hord : Spec.Ordered L S)
  {refs : F → ℕ}

include hnd in
theorem tkey_notMem_pre {pre post : List (Tag F)} {t : Tag F} (hS : S = pre ++ t :: post) :
    L.tkey t ∉ pre.map L.tkey ∧ L.tkey t ∉ post.map L.tkey := by
  have hn := hnd
  rw [hS, List.map_append, List.map_cons, List.nodup_append, List.nodup_cons] at hn
  exact ⟨fun hc => hn.2.2 _ hc _ (by simp) rfl, hn.2.1.1⟩

include hnd in
theorem eq_of_base {t u : Tag F} (ht : t ∈ S) (hu : u ∈ S) (h : t.base = u.base) : t = u :=
  List.inj_on_of_nodup_map hnd ht hu (by unfold Lib.tkey; rw [h])

include hnd in
/-- The state of a quiet accumulator after the visits of `S'`: only its own visit matters. -/
theorem pushX_at_quiet {t : Tag F} (hq : Quiet I t) {pre mid post : List (Tag F)} (hS : S = pre ++ t :: (mid ++ post))
    (env : Env F σ) (a : A) :
    L.pushX I S refs (pre ++ t :: mid) env a (L.tkey t) =
      if t.drop && decide (refs (L.tkey t) = 0) then env (L.tkey t)
      else some (t.base, I.upd t.base (L.pushX I S refs pre env a) a) := by
  obtain ⟨h1, h2⟩ := tkey_notMem_pre hnd hS
  have htS : t ∈ S := by rw [hS]; simp
  have h3 : L.tkey t ∉ mid.map L.tkey := fun h => h2 (by rw [List.map_append]; exact List.mem_append_left _ h)
  rw [Lib.pushX_append, Lib.pushX, List.foldl_cons, ← Lib.pushX,
    Lib.pushX_quiet I hnd refs a htS mid h3 fun t _ env s => hq _ _ _ _]
  unfold Lib.visitX
  split
  · rw [Lib.pushX_quiet I hnd refs a htS pre h1 fun t _ env s => hq _ _ _ _]
  · simp

include hnd in
/-- The state of an accumulator written to by `u`: only the visit of `u` matters. -/
theorem pushX_at_written {t u : Tag F} (hw : Written L I S t u) (hne : t ≠ u) {pre mid post : List (Tag F)} (ht : t ∈ S)
    (hS : S = pre ++ u :: (mid ++ post)) (hpre : t ∉ pre) (hal : u.drop = true → refs (L.tkey u) ≠ 0)
    {env : Env F σ} {f : F} {s : σ} (h0 : env (L.tkey t) = some (f, s)) (hf : f = t.base) (a : A) :
    L.pushX I S refs (pre ++ u :: mid) env a (L.tkey t) =
      some (t.base, I.assign u.base (L.pushX I S refs pre env a) a t s) := by
  subst hf
  have huS : u ∈ S := by rw [hS]; simp
  have hk : ∀ t' ∈ S, L.tkey t' = L.tkey t → t' = t := fun t' ht' h => List.inj_on_of_nodup_map hnd ht' ht h
  have hku : L.tkey u ≠ L.tkey t := fun h => hne (hk u huS h).symm
  have hprek : L.tkey t ∉ pre.map L.tkey := by
    intro h
    obtain ⟨t', h1, h2⟩ := List.mem_map.1 h
    exact hpre (hk t' (by rw [hS]; simp [h1]) h2 ▸ h1)
  have hb : ∀ t' ∈ S, t' ≠ u → t'.base ≠ u.base := fun t' ht' h1 h2 => h1 (eq_of_base hnd ht' huS h2)
  have hnd' : S.Nodup := List.Nodup.of_map _ hnd
  have hu1 : ∀ t' ∈ pre, t' ≠ u := by
    rintro t' ht' rfl
    rw [hS, List.nodup_append] at hnd'
    exact hnd'.2.2 t' ht' t' (by simp) rfl
  have hu2 : ∀ t' ∈ mid, t' ≠ u := by
    rintro t' ht' rfl
    rw [hS, List.nodup_append, List.nodup_cons] at hnd'
    exact hnd'.2.1.1 (by simp [ht'])
  have e1 : L.pushX I S refs pre env a (L.tkey t) = some (t.base, s) := by
    rw [Lib.pushX_quiet I hnd refs a ht pre hprek fun t' ht' env s =>
      hw.only _ _ _ _ (hb t' (by rw [hS]; simp [ht']) (hu1 t' ht')), h0]
  have e2 : L.visitX I S refs a (L.pushX I S refs pre env a) u (L.tkey t) =
      some (t.base, I.assign u.base (L.pushX I S refs pre env a) a t s) := by
    rw [Lib.visitX_other I hnd refs a _ ht hku, if_neg, e1]
    · rfl
    · simpa using hal
  rw [Lib.pushX_append, Lib.pushX, List.foldl_cons, ← Lib.pushX]
  -- the rest leaves it alone
  generalize hc : I.assign u.base (L.pushX I S refs pre env a) a t s = c at e2 ⊢
  generalize L.visitX I S refs a (L.pushX I S refs pre env a) u = env' at e2
  have hmid : ∀ t' ∈ mid, t' ∈ S ∧ t' ≠ u := fun t' ht' => ⟨by rw [hS]; simp [ht'], hu2 t' ht'⟩
  clear hc e1 hS
  induction mid generalizing env' with
  | nil => exact e2
  | cons t' mid ih =>
    obtain ⟨h1, h2⟩ := hmid t' (by simp)
    rw [Lib.pushX, List.foldl_cons, ← Lib.pushX]
    refine ih (fun t'' h => hu2 t'' (by simp [h])) _ ?_ fun t'' h => hmid t'' (by simp [h])
    by_cases hk' : L.tkey t' = L.tkey t
    · obtain rfl := hk t' h1 hk'
      unfold Lib.visitX
      split
      · exact e2
      · dsimp only
        rw [if_pos rfl, hw.idle env' a _ e2]
    · rw [Lib.visitX_other I hnd refs a env' ht hk', e2]
      split
      · rfl
      · simp [hw.only _ _ _ _ (hb t' h1 h2)]

end

section
variable {I : XImpl F σ A} {S : List (Tag F)} (hL : L.Ok) (hnd : (S.map L.tkey).Nodup) (hord : Spec.Ordered L S)
  {Good : F → List A → σ → Prop} (hstep : ∀ t ∈ S, StepOkX L I S Good t)

include hL hnd hord hstep in
/-- After a visit of all accumulators up to `t` (and possibly more), everything below `u` up to there is right. -/
theorem pushX_holds {refs : F → ℕ} {u : Tag F} (hu : u ∈ S) (hal : AllAlive L S refs u) {as : List A} {env : Env F σ}
    (h : ∀ t, Below L S u t → Holds L Good as env t) (a : A) (t : Tag F) :
    Below L S u t → ∀ S1 S2, S = S1 ++ S2 → t ∈ S1 →
      Holds L Good (as ++ [a]) (L.pushX I S refs S1 env a) t := by
  induction t using Lib.rank_induction (L := L) with
  | h t ih =>
    intro ht S1 S2 hS12 ht1
    have htS := ht.mem hu
    have huse : ∀ x, Below L S u x → Spec.Uses L S t x ∨ x = t → ∀ pre post, S = pre ++ x :: post →
        ∀ e, Spec.Uses L S x e → Holds L Good (as ++ [a]) (L.pushX I S refs pre env a) e := by
      intro x hx hxt pre post hS e he
      have heS := uses_mem he
      have hrank : L.rank (L.tkey e) < L.rank (L.tkey t) := by
        rcases hxt with hxt | rfl
        · exact uses_rank hL (uses_trans hxt he)
        · exact uses_rank hL he
      exact ih e hrank (hx.trans he) pre (x :: post) hS
        (before_mem_pre hnd hS (hord x (hx.mem hu) e heS he))
    rcases hstep t htS with ⟨hq, hs⟩ | ⟨w, hw, hs⟩
    · obtain ⟨pre, mid, rfl⟩ := List.append_of_mem ht1
      have hS : S = pre ++ t :: (mid ++ S2) := by rw [hS12]; simp
      have e1 := pushX_at_quiet hnd (I := I) (refs := refs) hq hS env a
      rw [if_neg (by simpa using hal t ht)] at e1
      refine ⟨_, e1, hs as a _ ?_ (huse t ht (Or.inr rfl) pre _ hS)⟩
      obtain ⟨s, h1, h2⟩ := h t ht
      refine ⟨s, ?_, h2⟩
      rw [Lib.pushX_quiet I hnd refs a htS pre (tkey_notMem_pre hnd hS).1 fun t _ env s => hq _ _ _ _, h1]
    · have hwS := uses_mem hw.uses
      have hbw : Below L S u w := ht.trans hw.uses
      have hne : t ≠ w := by
        rintro rfl
        exact absurd (uses_rank hL hw.uses) (lt_irrefl _)
      -- the writer is visited before `t`
      have hbefore := hord t htS w hwS hw.uses
      obtain ⟨p1, p2, hp⟩ := List.append_of_mem ht1
      have hw1 : w ∈ p1 := before_mem_pre hnd (by rw [hS12, hp]; simp : S = p1 ++ t :: (p2 ++ S2)) hbefore
      obtain ⟨pre, mid0, hp1⟩ := List.append_of_mem hw1
      have hS1 : S1 = pre ++ w :: (mid0 ++ t :: p2) := by rw [hp, hp1]; simp
      have hS : S = pre ++ w :: ((mid0 ++ t :: p2) ++ S2) := by rw [hS12, hS1]; simp
      have htpre : t ∉ pre := by
        intro hc
        have hn' : S.Nodup := List.Nodup.of_map _ hnd
        rw [hS, List.nodup_append] at hn'
        exact hn'.2.2 t hc t (by simp) rfl
      obtain ⟨s, h1, h2⟩ := h t ht
      have e1 := pushX_at_written hnd (I := I) (refs := refs) hw hne htS hS htpre (hal w hbw) h1 rfl a
      rw [← hS1] at e1
      refine ⟨_, e1, hs as a _ s ?_ h2 ?_ (huse w hbw (Or.inl hw.uses) pre _ hS)⟩
      · have hk : L.tkey t ∉ pre.map L.tkey := by
          intro hc
          obtain ⟨t', h3, h4⟩ := List.mem_map.1 hc
          exact htpre (List.inj_on_of_nodup_map hnd (by rw [hS]; simp [h3]) htS h4 ▸ h3)
        rw [Lib.pushX_quiet I hnd refs a htS pre hk fun t' ht' env s => hw.only _ _ _ _ ?_, h1]
        intro hb
        have e := eq_of_base hnd (by rw [hS]; simp [ht']) hwS hb
        exact (tkey_notMem_pre hnd hS).1 (List.mem_map.2 ⟨t', ht', by rw [e]⟩)
      · obtain ⟨sw, h3, h4⟩ := h w hbw
        refine ⟨sw, ?_, h4⟩
        rw [Lib.pushX_quiet I hnd refs a hwS pre (tkey_notMem_pre hnd hS).1 fun t' ht' env s => hw.quiet _ _ _ _, h3]

/-- The pushes of a history without drops. -/
theorem runX_pushes (I : XImpl F σ A) (S : List (Tag F)) (s : SetState F σ) (xs : List A) :
    L.runX I S s (xs.map SetOp.push) = .val { s with env := xs.foldl (L.pushX I S s.refs S) s.env } := by
  induction xs generalizing s with
  | nil => rfl
  | cons x xs ih =>
    rw [List.map_cons, Lib.runX, List.foldlM_cons, Lib.stepX, Res.val_bind]
    exact ih _

include hL hnd hord hstep in
/-- After any pushes everything a requested accumulator uses is as it should be. -/
theorem runsX_hold (hinit : ∀ t ∈ S, Good t.base [] (I.init t.base)) {req : List (Tag F)} {u : Tag F} (hu : u ∈ S)
    (hreq : Spec.Mentions L req (L.tkey u)) (as : List A) :
    ∃ s, L.runX I S (L.construct I.toImpl S req) (as.map SetOp.push) = .val s ∧
      ∀ t, Below L S u t → Holds L Good as s.env t := by
  refine ⟨_, runX_pushes I S _ as, ?_⟩
  have hal : AllAlive L S (L.construct I.toImpl S req).refs u := initRefs_alive hL hu hreq (Or.inl rfl)
  revert hal
  generalize hs0 : L.construct I.toImpl S req = s0
  intro hal
  show ∀ t, Below L S u t → Holds L Good as (as.foldl (L.pushX I S s0.refs S) s0.env) t
  induction as using List.reverseRecOn with
  | nil =>
    intro t ht
    refine ⟨_, ?_, hinit t (ht.mem hu)⟩
    rw [← hs0]
    exact Lib.construct_at I.toImpl hnd req (ht.mem hu)
  | append_singleton as a ih =>
    intro t ht
    rw [List.foldl_append]
    exact pushX_holds hL hnd hord hstep hu hal ih a t ht S [] (by simp) (ht.mem hu)

end

end Acc
