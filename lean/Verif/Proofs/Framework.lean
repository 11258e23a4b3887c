import Verif.Spec.Features
import Mathlib.Data.List.Perm.Basic
import Mathlib.Data.List.Nodup
import Mathlib.Data.List.Induction
import Mathlib.Tactic.Linarith
import Mathlib.Algebra.BigOperators.Group.List.Basic

/-! # Lemmas about dependency resolution, sorting and reference counts -/

set_option linter.unusedSectionVars false

namespace Acc

variable {F : Type} [DecidableEq F] {L : Lib F}

namespace Lib

/-! ## The feature map -/

theorem insertFeature_cases (m : List (Tag F)) (t : Tag F) :
    (L.insertFeature m t = m ∧ ∃ e ∈ m, L.tkey e = L.tkey t) ∨
    (L.insertFeature m t = m ++ [t] ∧ ∀ e ∈ m, L.tkey e ≠ L.tkey t) := by
  unfold insertFeature
  by_cases h : (m.any fun e => decide (L.tkey e = L.tkey t)) = true
  · left
    rw [if_pos h]
    simp only [List.any_eq_true, decide_eq_true_eq] at h
    exact ⟨rfl, h⟩
  · right
    rw [if_neg h]
    simp only [List.any_eq_true, decide_eq_true_eq, not_exists, not_and] at h
    exact ⟨rfl, h⟩

theorem insertFeature_prefix (m : List (Tag F)) (t : Tag F) : m <+: L.insertFeature m t := by
  rcases insertFeature_cases (L := L) m t with ⟨h, -⟩ | ⟨h, -⟩ <;> rw [h]
  · exact List.prefix_rfl
  · exact List.prefix_append _ _

theorem insertFeature_nodup {m : List (Tag F)} (t : Tag F) (h : (m.map L.tkey).Nodup) :
    ((L.insertFeature m t).map L.tkey).Nodup := by
  rcases insertFeature_cases (L := L) m t with ⟨e, -⟩ | ⟨e, hn⟩ <;> rw [e]
  · exact h
  · rw [List.map_append, List.nodup_append]
    refine ⟨h, by simp, ?_⟩
    intro a ha b hb
    obtain ⟨x, hx, rfl⟩ := List.mem_map.1 ha
    simp only [List.map_cons, List.map_nil, List.mem_singleton] at hb
    rw [hb]
    exact hn x hx

theorem insertFeature_key (m : List (Tag F)) (t : Tag F) :
    ∃ e ∈ L.insertFeature m t, L.tkey e = L.tkey t := by
  rcases insertFeature_cases (L := L) m t with ⟨h, e⟩ | ⟨h, -⟩ <;> rw [h]
  · exact e
  · exact ⟨t, by simp, rfl⟩

theorem insertFeature_mem {m : List (Tag F)} {t e : Tag F} (h : e ∈ L.insertFeature m t) :
    e ∈ m ∨ e = t := by
  rcases insertFeature_cases (L := L) m t with ⟨h', -⟩ | ⟨h', -⟩ <;> rw [h'] at h
  · exact Or.inl h
  · simpa using h

/-- Folding steps that only extend the map extends the map. -/
theorem foldl_prefix {α β : Type} {f : List α → β → List α} (hf : ∀ m b, m <+: f m b) (l : List β)
    (m : List α) : m <+: l.foldl f m := by
  induction l generalizing m with
  | nil => exact List.prefix_rfl
  | cons b l ih => exact (hf m b).trans (ih _)

theorem insertDeps_prefix (w : Bool) (n : ℕ) (m : List (Tag F)) (t : Tag F) :
    m <+: L.insertDeps w n m t := by
  induction n generalizing m t with
  | zero => exact List.prefix_rfl
  | succ n ih =>
    exact foldl_prefix (fun m d => (insertFeature_prefix m d).trans (ih _ d)) _ _

theorem foldl_inv {α β : Type} {P : α → Prop} {f : α → β → α} (l : List β)
    (hf : ∀ a, ∀ b ∈ l, P a → P (f a b)) {a : α} (h : P a) : P (l.foldl f a) := by
  induction l generalizing a with
  | nil => exact h
  | cons b l ih =>
    exact ih (fun a b' hb' => hf a b' (by simp [hb'])) (hf a b (by simp) h)

theorem insertDeps_nodup (w : Bool) (n : ℕ) {m : List (Tag F)} (t : Tag F)
    (h : (m.map L.tkey).Nodup) : ((L.insertDeps w n m t).map L.tkey).Nodup := by
  induction n generalizing m t with
  | zero => exact h
  | succ n ih =>
    exact foldl_inv (P := fun m : List (Tag F) => (m.map L.tkey).Nodup) _
      (fun m d _ hm => ih d (insertFeature_nodup d hm)) h

theorem insertDeps_mem (w : Bool) (n : ℕ) {m : List (Tag F)} {t e : Tag F}
    (h : e ∈ L.insertDeps w n m t) : e ∈ m ∨ Spec.Needs L w t e := by
  induction n generalizing m t e with
  | zero => exact Or.inl h
  | succ n ih =>
    have := foldl_inv (P := fun m' : List (Tag F) => ∀ e ∈ m', e ∈ m ∨ Spec.Needs L w t e)
      (f := fun m d => L.insertDeps w n (L.insertFeature m d) d) (L.asList w (L.tdeps t))
      (fun m' d hd hm' e he => by
        rcases ih he with h1 | h1
        · rcases insertFeature_mem h1 with h2 | rfl
          · exact hm' e h2
          · exact Or.inr (.direct hd)
        · exact Or.inr (.step hd h1)) (a := m) (fun e he => Or.inl he)
    exact this e h

theorem foldl_key {β : Type} {f : List (Tag F) → β → List (Tag F)} (hf : ∀ m b, m <+: f m b)
    {P : β → F → Prop} (l : List β) (hP : ∀ m, ∀ b ∈ l, ∀ k, P b k → ∃ e ∈ f m b, L.tkey e = k)
    (m : List (Tag F)) : ∀ b ∈ l, ∀ k, P b k → ∃ e ∈ l.foldl f m, L.tkey e = k := by
  induction l generalizing m with
  | nil => simp
  | cons b l ih =>
    intro b' hb' k hk
    rcases List.mem_cons.1 hb' with rfl | hb'
    · obtain ⟨e, he, hek⟩ := hP m b' (by simp) k hk
      exact ⟨e, (foldl_prefix hf l (f m b')).subset he, hek⟩
    · exact ih (fun m b hb => hP m b (by simp [hb])) (f m b) b' hb' k hk

theorem mem_asList_rank (hL : L.Ok) {w : Bool} {t d : Tag F} (h : d ∈ L.asList w (L.tdeps t)) :
    ∃ d0 ∈ L.deps t.base, L.tkey d = L.key d0.base := by
  have key : ∀ d ∈ L.tdeps t, ∃ d0 ∈ L.deps t.base, L.tkey d = L.key d0.base := by
    intro d hd
    unfold tdeps at hd
    split at hd
    · obtain ⟨d0, h0, rfl⟩ := List.mem_map.1 hd
      exact ⟨d0, h0, rfl⟩
    · exact ⟨d, hd, rfl⟩
  unfold asList at h
  split at h
  · obtain ⟨d1, h1, rfl⟩ := List.mem_map.1 h
    obtain ⟨d0, h0, e⟩ := key d1 h1
    refine ⟨d0, h0, ?_⟩
    rw [← e]
    exact hL.weighted_key d1.base
  · exact key d h

theorem asList_rank_lt (hL : L.Ok) {w : Bool} {t d : Tag F} (h : d ∈ L.asList w (L.tdeps t)) :
    L.rank (L.tkey d) < L.rank (L.tkey t) := by
  obtain ⟨d0, h0, e⟩ := mem_asList_rank hL h
  rw [e]
  exact hL.down t.base d0 h0

/-- Everything needed is inserted. -/
theorem insertDeps_complete (hL : L.Ok) (w : Bool) (n : ℕ) (m : List (Tag F)) {t d : Tag F}
    (hn : L.rank (L.tkey t) < n) (h : Spec.Needs L w t d) :
    ∃ e ∈ L.insertDeps w n m t, L.tkey e = L.tkey d := by
  induction n generalizing m t d with
  | zero => omega
  | succ n ih =>
    have key := foldl_key (L := L) (f := fun m d => L.insertDeps w n (L.insertFeature m d) d)
      (fun m d => (insertFeature_prefix m d).trans (insertDeps_prefix w n _ d))
      (P := fun d k => k = L.tkey d ∨ ∃ e, Spec.Needs L w d e ∧ k = L.tkey e)
      (L.asList w (L.tdeps t)) (by
        rintro m d hd k (rfl | ⟨e, he, rfl⟩)
        · obtain ⟨e, he, hek⟩ := insertFeature_key (L := L) m d
          exact ⟨e, (insertDeps_prefix w n _ d).subset he, hek⟩
        · have := asList_rank_lt hL hd
          exact ih _ (by omega) he) m
    cases h with
    | direct hd => exact key d hd _ (Or.inl rfl)
    | step hd hde => exact key _ hd _ (Or.inr ⟨d, hde, rfl⟩)

theorem featureMap_spec (w : Bool) (req : List (Tag F)) :
    ((L.featureMap w req).map L.tkey).Nodup ∧
    ∀ t, t ∈ L.featureMap w req ↔ Spec.FirstOfKind L (L.asList w req) t := by
  unfold featureMap
  generalize L.asList w req = l
  induction l using List.reverseRecOn with
  | nil =>
    refine ⟨by simp, fun t => ⟨by simp, ?_⟩⟩
    rintro ⟨a, b, h, -⟩
    simp at h
  | append_singleton l x ih =>
    rw [List.foldl_append]
    simp only [List.foldl_cons, List.foldl_nil]
    refine ⟨insertFeature_nodup x ih.1, ?_⟩
    -- every element of l has its key in the map
    have hcov : ∀ q ∈ l, ∃ e ∈ l.foldl L.insertFeature [], L.tkey e = L.tkey q := fun q hq =>
      foldl_key (L := L) (f := L.insertFeature) insertFeature_prefix (P := fun q k => k = L.tkey q) l
        (by rintro m q - k rfl; exact insertFeature_key m q) [] q hq _ rfl
    have hsub : ∀ e ∈ l.foldl L.insertFeature [], e ∈ l := by
      intro e he
      obtain ⟨a, b, rfl, -⟩ := (ih.2 e).1 he
      simp
    intro t
    have split : Spec.FirstOfKind L (l ++ [x]) t ↔
        Spec.FirstOfKind L l t ∨ (t = x ∧ ∀ q ∈ l, L.tkey q ≠ L.tkey t) := by
      constructor
      · rintro ⟨a, b, h, hn⟩
        rcases List.eq_nil_or_concat b with rfl | ⟨b', y, rfl⟩
        · obtain ⟨rfl, h2⟩ := List.append_inj' h rfl
          simp only [List.cons.injEq, and_true] at h2
          exact Or.inr ⟨h2.symm, hn⟩
        · left
          have h' : l ++ [x] = (a ++ t :: b') ++ [y] := by rw [h]; simp
          obtain ⟨rfl, -⟩ := List.append_inj' h' rfl
          exact ⟨a, b', rfl, hn⟩
      · rintro (⟨a, b, rfl, hn⟩ | ⟨rfl, hn⟩)
        · exact ⟨a, b ++ [x], by simp, hn⟩
        · exact ⟨l, [], rfl, hn⟩
    rw [split, ← ih.2]
    rcases insertFeature_cases (L := L) (l.foldl L.insertFeature []) x with ⟨h, e, he, hek⟩ | ⟨h, hn⟩ <;>
      rw [h]
    · refine ⟨Or.inl, ?_⟩
      rintro (h1 | ⟨rfl, h1⟩)
      · exact h1
      · exact absurd hek (h1 e (hsub e he))
    · rw [List.mem_append, List.mem_singleton]
      refine or_congr_right ⟨?_, fun h => h.1⟩
      rintro rfl
      refine ⟨rfl, fun q hq hk => ?_⟩
      obtain ⟨e, he, hek⟩ := hcov q hq
      exact hn e he (hek.trans hk)

/-- The map of all features of the set. -/
theorem withDeps_spec (hL : L.Ok) (w : Bool) {ord : List (Tag F) → List (Tag F)}
    (hord : ∀ l, (ord l).Perm l) (req : List (Tag F)) :
    L.featureMap w req <+: L.withDeps w ord req ∧
    ((L.withDeps w ord req).map L.tkey).Nodup ∧
    (∀ e ∈ L.withDeps w ord req, ∃ r ∈ L.featureMap w req, e = r ∨ Spec.Needs L w r e) ∧
    (∀ r ∈ L.featureMap w req, ∀ d, Spec.Needs L w r d →
      ∃ e ∈ L.withDeps w ord req, L.tkey e = L.tkey d) := by
  obtain ⟨hnd, -⟩ := featureMap_spec (L := L) w req
  unfold withDeps
  have hpre : ∀ m t, m <+: L.insertDeps w (L.rank (L.tkey t) + 1) m t :=
    fun m t => insertDeps_prefix w _ m t
  refine ⟨foldl_prefix hpre _ _, ?_, ?_, ?_⟩
  · exact foldl_inv (P := fun m : List (Tag F) => (m.map L.tkey).Nodup) _
      (fun m t _ hm => insertDeps_nodup w _ t hm) hnd
  · exact foldl_inv (P := fun m : List (Tag F) => ∀ e ∈ m, ∃ r ∈ L.featureMap w req,
        e = r ∨ Spec.Needs L w r e) _
      (fun m t ht hm e he => by
        rcases insertDeps_mem w _ he with h | h
        · exact hm e h
        · exact ⟨t, (hord _).mem_iff.1 ht, Or.inr h⟩) (fun e he => ⟨e, he, Or.inl rfl⟩)
  · intro r hr d hd
    exact foldl_key (L := L) hpre (P := fun t k => ∃ d, Spec.Needs L w t d ∧ k = L.tkey d)
      (ord (L.featureMap w req)) (by
        rintro m t - k ⟨d, hd, rfl⟩
        exact insertDeps_complete hL w _ m (by omega) hd) _ r ((hord _).mem_iff.2 hr) _ ⟨d, hd, rfl⟩

/-! ## Base classes -/

theorem mem_collect {n : ℕ} {f g : F} (h : g ∈ L.collect n f) :
    ∃ d ∈ L.deps f, g = L.key d.base ∨ ∃ m, n = m + 1 ∧ g ∈ L.collect m d.base := by
  cases n with
  | zero => simp [collect] at h
  | succ n =>
    simp only [collect, List.mem_flatMap, List.mem_cons] at h
    obtain ⟨d, hd, h⟩ := h
    exact ⟨d, hd, h.imp_right fun h => ⟨n, rfl, h⟩⟩

theorem collect_ancestor {n : ℕ} {f g : F} (h : g ∈ L.collect n f) :
    Spec.Ancestor L f g ∧ (L.Ok → L.rank g < L.rank (L.key f)) := by
  induction n generalizing f with
  | zero => simp [collect] at h
  | succ n ih =>
    obtain ⟨d, hd, rfl | ⟨m, hm, h'⟩⟩ := mem_collect h
    · exact ⟨.direct hd, fun hL => hL.down f d hd⟩
    · obtain rfl : m = n := by omega
      exact ⟨.dep hd (ih h').1, fun hL => ((ih h').2 hL).trans (hL.down f d hd)⟩

theorem collect_trans {n : ℕ} {f g h : F} (hg : g ∈ L.collect n f) (hh : Spec.Ancestor L g h) :
    Spec.Ancestor L f h := by
  induction n generalizing f with
  | zero => simp [collect] at hg
  | succ n ih =>
    obtain ⟨d, hd, rfl | ⟨m, hm, h'⟩⟩ := mem_collect hg
    · exact .default hd hh
    · obtain rfl : m = n := by omega
      exact .dep hd (ih h')

theorem basesN_ancestor {n : ℕ} {f g : F} (h : g ∈ L.basesN n f) : Spec.Ancestor L f g := by
  induction n generalizing f with
  | zero => simp [basesN] at h
  | succ n ih =>
    simp only [basesN, List.mem_flatMap, List.mem_cons] at h
    obtain ⟨g', hg', rfl | h⟩ := h
    · exact (collect_ancestor hg').1
    · exact collect_trans hg' (ih h)

theorem collect_key {n : ℕ} {f g : F} (hL : L.Ok) (h : g ∈ L.collect n f) : L.key g = g := by
  induction n generalizing f with
  | zero => simp [collect] at h
  | succ n ih =>
    obtain ⟨d, hd, rfl | ⟨m, hm, h'⟩⟩ := mem_collect h
    · exact hL.idem _
    · obtain rfl : m = n := by omega
      exact ih h'

theorem collect_mono {n n' : ℕ} (h : n ≤ n') (f : F) : L.collect n f ⊆ L.collect n' f := by
  induction n generalizing f n' with
  | zero => simp [collect]
  | succ n ih =>
    obtain ⟨m, rfl⟩ : ∃ m, n' = m + 1 := ⟨n' - 1, by omega⟩
    intro g hg
    simp only [collect, List.mem_flatMap, List.mem_cons] at hg ⊢
    obtain ⟨d, hd, hg⟩ := hg
    exact ⟨d, hd, hg.imp_right fun h' => ih (by omega) _ h'⟩

theorem basesN_mono {n n' : ℕ} (h : n ≤ n') (f : F) : L.basesN n f ⊆ L.basesN n' f := by
  induction n generalizing f n' with
  | zero => simp [basesN]
  | succ n ih =>
    obtain ⟨m, rfl⟩ : ∃ m, n' = m + 1 := ⟨n' - 1, by omega⟩
    intro g hg
    simp only [basesN, List.mem_flatMap, List.mem_cons] at hg ⊢
    obtain ⟨g', hg', hg⟩ := hg
    exact ⟨g', collect_mono h f hg', hg.imp_right fun h' => ih (by omega) _ h'⟩

/-- The base classes of a dependency are base classes. -/
theorem basesN_dep {n : ℕ} {f g : F} {d : Tag F} (hd : d ∈ L.deps f) (h : g ∈ L.basesN n d.base) :
    g ∈ L.basesN (n + 1) f := by
  cases n with
  | zero => simp [basesN] at h
  | succ n =>
    simp only [basesN, List.mem_flatMap, List.mem_cons] at h ⊢
    obtain ⟨g', hg', h⟩ := h
    refine ⟨g', ?_, h.imp_right fun h => ?_⟩
    · simp only [collect, List.mem_flatMap, List.mem_cons] at hg' ⊢
      exact ⟨d, hd, Or.inr hg'⟩
    · have := basesN_mono (Nat.le_succ n) g' h
      simpa only [basesN, List.mem_flatMap, List.mem_cons] using this

theorem ancestor_basesN (hL : L.Ok) {f g : F} (h : Spec.Ancestor L f g) :
    ∀ n, L.rank (L.key f) < n → g ∈ L.basesN n f := by
  induction h with
  | @direct f d hd =>
    intro n hn
    obtain ⟨m, rfl⟩ : ∃ m, n = m + 1 := ⟨n - 1, by omega⟩
    simp only [basesN, List.mem_flatMap, List.mem_cons]
    exact ⟨L.key d.base, by
      simp only [collect, List.mem_flatMap, List.mem_cons]
      exact ⟨d, hd, Or.inl rfl⟩, Or.inl rfl⟩
  | @dep f g d hd _ ih =>
    intro n hn
    obtain ⟨m, rfl⟩ : ∃ m, n = m + 1 := ⟨n - 1, by omega⟩
    have := hL.down f d hd
    exact basesN_dep hd (ih m (by omega))
  | @default f g d hd _ ih =>
    intro n hn
    obtain ⟨m, rfl⟩ : ∃ m, n = m + 1 := ⟨n - 1, by omega⟩
    have := hL.down f d hd
    simp only [basesN, List.mem_flatMap, List.mem_cons]
    refine ⟨L.key d.base, ?_, Or.inr (ih m (by rw [hL.idem]; omega))⟩
    simp only [collect, List.mem_flatMap, List.mem_cons]
    exact ⟨d, hd, Or.inl rfl⟩

theorem mem_bases (hL : L.Ok) {f g : F} : g ∈ L.bases f ↔ Spec.Ancestor L f g :=
  ⟨basesN_ancestor, fun h => ancestor_basesN hL h _ (by omega)⟩

theorem ancestor_rank (hL : L.Ok) {f g : F} (h : Spec.Ancestor L f g) : L.rank g < L.rank (L.key f) := by
  induction h with
  | @direct f d hd => exact hL.down f d hd
  | @dep f g d hd _ ih => exact ih.trans (hL.down f d hd)
  | @default f g d hd _ ih => rw [hL.idem] at ih; exact ih.trans (hL.down f d hd)

theorem ancestor_key (hL : L.Ok) {f g : F} (h : Spec.Ancestor L f g) : L.key g = g := by
  induction h with
  | direct hd => exact hL.idem _
  | dep _ _ ih => exact ih
  | default _ _ ih => exact ih

end Lib

/-! ## Quicksort -/

section sort
variable {α : Type} {pred : α → α → Bool}

theorem filter_perm {α : Type} (p : α → Bool) (l : List α) :
    (l.filter p ++ l.filter fun x => !p x).Perm l := by
  induction l with
  | nil => simp
  | cons a l ih =>
    by_cases h : p a = true
    · simpa [List.filter_cons, h] using ih
    · simp only [List.filter_cons, h]
      simp only [Bool.false_eq_true, if_false, Bool.not_false, if_true]
      exact List.perm_middle.trans (ih.cons a)

theorem quickSort_perm : ∀ (n : ℕ) (l : List α), l.length ≤ n → (quickSort pred n l).Perm l
  | 0, l, h => by
    have : l = [] := by simpa using h
    subst this
    exact List.Perm.refl _
  | n + 1, [], _ => List.Perm.refl _
  | n + 1, p :: l, h => by
    rw [quickSort]
    have hl : l.length ≤ n := by simpa using h
    have h1 := quickSort_perm n (l.filter fun x => pred x p)
      ((List.length_filter_le _ _).trans hl)
    have h2 := quickSort_perm n (l.filter fun x => !pred x p)
      ((List.length_filter_le _ _).trans hl)
    rw [List.append_assoc, List.singleton_append]
    exact List.perm_middle.trans (((h1.append h2).trans (filter_perm _ l)).cons p)

/-- The relation of standing before one another, by positions. -/
theorem before_append_left {l l' : List α} {a b : α} (h : Spec.Before l a b) : Spec.Before (l ++ l') a b := by
  obtain ⟨x, y, z, rfl⟩ := h
  exact ⟨x, y, z ++ l', by simp⟩

theorem before_append_right {l l' : List α} {a b : α} (h : Spec.Before l' a b) : Spec.Before (l ++ l') a b := by
  obtain ⟨x, y, z, rfl⟩ := h
  exact ⟨l ++ x, y, z, by simp⟩

theorem before_append {l l' : List α} {a b : α} (ha : a ∈ l) (hb : b ∈ l') : Spec.Before (l ++ l') a b := by
  obtain ⟨x, y, rfl⟩ := List.append_of_mem ha
  obtain ⟨z, u, rfl⟩ := List.append_of_mem hb
  exact ⟨x, y ++ z, u, by simp⟩

/-- A pair `b < a` comes out in order provided that no third element separates them. -/
theorem quickSort_before {a b : α} (hab : a ≠ b) (hlt : pred b a = true) (hasym : pred a b = false) :
    ∀ (n : ℕ) (l : List α), l.length ≤ n → a ∈ l → b ∈ l →
      (∀ p ∈ l, pred a p = true → pred b p = true) → Spec.Before (quickSort pred n l) b a
  | 0, l, h, ha, _, _ => by
    have : l = [] := by simpa using h
    subst this
    simp at ha
  | n + 1, [], _, ha, _, _ => by simp at ha
  | n + 1, p :: l, h, ha, hb, hs => by
    rw [quickSort]
    have hl : l.length ≤ n := by simpa using h
    have hlen1 := (List.length_filter_le (fun x => pred x p) l).trans hl
    have hlen2 := (List.length_filter_le (fun x => !pred x p) l).trans hl
    have hm1 : ∀ {x}, x ∈ _ ↔ x ∈ _ := fun {x} =>
      (quickSort_perm (pred := pred) n (l.filter fun x => pred x p) hlen1).mem_iff (a := x)
    have hm2 : ∀ {x}, x ∈ _ ↔ x ∈ _ := fun {x} =>
      (quickSort_perm (pred := pred) n (l.filter fun x => !pred x p) hlen2).mem_iff (a := x)
    rcases List.mem_cons.1 ha with rfl | ha'
    · -- the pivot is `a`
      rcases List.mem_cons.1 hb with rfl | hb
      · exact absurd rfl hab
      · rw [List.append_assoc]
        refine before_append (hm1.2 ?_) (by simp)
        exact List.mem_filter.2 ⟨hb, hlt⟩
    · rcases List.mem_cons.1 hb with rfl | hb
      · refine before_append (by simp) (hm2.2 ?_)
        exact List.mem_filter.2 ⟨ha', by simp [hasym]⟩
      · by_cases hap : pred a p = true
        · have hbp := hs p (by simp) hap
          exact before_append_left (before_append_left (quickSort_before hab hlt hasym n _ hlen1
            (List.mem_filter.2 ⟨ha', hap⟩) (List.mem_filter.2 ⟨hb, hbp⟩)
            fun q hq => hs q (by simp [(List.mem_filter.1 hq).1])))
        · by_cases hbp : pred b p = true
          · exact before_append (by simp [hm1, hb, hbp]) (hm2.2 (List.mem_filter.2 ⟨ha', by simp [hap]⟩))
          · exact before_append_right (quickSort_before hab hlt hasym n _ hlen2
              (List.mem_filter.2 ⟨ha', by simp [hap]⟩) (List.mem_filter.2 ⟨hb, by simp [hbp]⟩)
              fun q hq => hs q (by simp [(List.mem_filter.1 hq).1]))

end sort

end Acc
