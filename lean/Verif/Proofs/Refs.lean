import Verif.Proofs.Framework
import Verif.Model.AccSet
import Mathlib.Algebra.Order.BigOperators.Group.List
import Mathlib.Algebra.Order.Group.Nat

/-! # Lemmas about reference counts -/

set_option linter.unusedSectionVars false

namespace Acc

variable {F : Type} [DecidableEq F] {L : Lib F}

namespace Lib

theorem tkey_mem_tdeps (t : Tag F) (k : F) :
    k ∈ (L.tdeps t).map L.tkey ↔ ∃ d ∈ L.deps t.base, L.tkey d = k := by
  unfold tdeps
  split <;> simp [tkey, List.mem_map]

theorem mem_visitIf {S fs : List (Tag F)} {a : Tag F} :
    a ∈ L.visitIf S fs ↔ a ∈ S ∧ ∃ d ∈ fs, L.tkey d = L.tkey a := by
  simp [visitIf, List.mem_filter, List.mem_map]

theorem mem_visit_deps {S : List (Tag F)} {t a : Tag F} :
    a ∈ L.visitIf S (L.tdeps t) ↔ a ∈ S ∧ ∃ d ∈ L.deps t.base, L.tkey d = L.tkey a := by
  rw [mem_visitIf, ← tkey_mem_tdeps]
  simp [List.mem_map]

theorem visit_rank (hL : L.Ok) {S : List (Tag F)} {t a : Tag F} (h : a ∈ L.visitIf S (L.tdeps t)) :
    L.rank (L.tkey a) < L.rank (L.tkey t) := by
  obtain ⟨-, d, hd, e⟩ := mem_visit_deps.1 h
  rw [← e]
  exact hL.down t.base d hd

/-- How many times visiting `t` with `add_ref` reaches the droppable accumulator of `k`. -/
def paths (L : Lib F) (S : List (Tag F)) : ℕ → Tag F → F → ℕ
  | 0, _, _ => 0
  | n + 1, t, k =>
    (if t.drop = true ∧ L.tkey t = k then 1 else 0)
      + ((L.visitIf S (L.tdeps t)).map fun a => paths L S n a k).sum

/-- How many times visiting `t` with `drop` reaches the accumulator of `k`. -/
def dpaths (L : Lib F) (S : List (Tag F)) : ℕ → Tag F → F → ℕ
  | 0, _, _ => 0
  | n + 1, t, k =>
    if t.drop = true then
      (if L.tkey t = k then 1 else 0) + ((L.visitIf S (L.tdeps t)).map fun a => dpaths L S n a k).sum
    else 0

theorem foldl_add {β : Type} {f : (F → ℕ) → β → (F → ℕ)} {p : β → F → ℕ}
    (l : List β) (hf : ∀ b ∈ l, ∀ c, f c b = fun k => c k + p b k) (c : F → ℕ) :
    l.foldl f c = fun k => c k + (l.map fun b => p b k).sum := by
  induction l generalizing c with
  | nil => simp
  | cons b l ih =>
    rw [List.foldl_cons, ih (fun b' hb' => hf b' (by simp [hb'])), hf b (by simp)]
    funext k
    simp [add_assoc]

theorem addRef_eq (S : List (Tag F)) (n : ℕ) (c : F → ℕ) (t : Tag F) :
    L.addRef S n c t = fun k => c k + paths L S n t k := by
  induction n generalizing c t with
  | zero => simp [addRef, paths]
  | succ n ih =>
    rw [addRef, foldl_add _ (fun b _ c => ih c b)]
    funext k
    rw [paths, ← add_assoc]
    congr 1
    by_cases hd : t.drop = true
    · by_cases hk : L.tkey t = k
      · subst hk; simp [hd]
      · simp [hd, hk, Function.update_of_ne (Ne.symm hk)]
    · simp [hd]

theorem paths_fuel (hL : L.Ok) (S : List (Tag F)) {n m : ℕ} {t : Tag F} (hn : L.rank (L.tkey t) < n)
    (hm : L.rank (L.tkey t) < m) : paths L S n t = paths L S m t := by
  induction n generalizing m t with
  | zero => omega
  | succ n ih =>
    obtain ⟨m, rfl⟩ : ∃ m', m = m' + 1 := ⟨m - 1, by omega⟩
    funext k
    rw [paths, paths]
    congr 2
    refine List.map_congr_left fun a ha => ?_
    have := visit_rank hL ha
    rw [ih (m := m) (by omega) (by omega)]

theorem dpaths_fuel (hL : L.Ok) (S : List (Tag F)) {n m : ℕ} {t : Tag F} (hn : L.rank (L.tkey t) < n)
    (hm : L.rank (L.tkey t) < m) : dpaths L S n t = dpaths L S m t := by
  induction n generalizing m t with
  | zero => omega
  | succ n ih =>
    obtain ⟨m, rfl⟩ : ∃ m', m = m' + 1 := ⟨m - 1, by omega⟩
    funext k
    rw [dpaths, dpaths]
    congr 2
    congr 1
    refine List.map_congr_left fun a ha => ?_
    have := visit_rank hL ha
    rw [ih (m := m) (by omega) (by omega)]

/-- With the bound used by the set. -/
def P (L : Lib F) (S : List (Tag F)) (t : Tag F) : F → ℕ := paths L S (L.rank (L.tkey t) + 1) t
def D (L : Lib F) (S : List (Tag F)) (t : Tag F) : F → ℕ := dpaths L S (L.rank (L.tkey t) + 1) t

theorem P_eq (hL : L.Ok) (S : List (Tag F)) (t : Tag F) (k : F) :
    P L S t k = (if t.drop = true ∧ L.tkey t = k then 1 else 0)
      + ((L.visitIf S (L.tdeps t)).map fun a => P L S a k).sum := by
  rw [P, paths]
  congr 2
  refine List.map_congr_left fun a ha => ?_
  rw [P, paths_fuel hL S (visit_rank hL ha) (Nat.lt_succ_self _)]

theorem D_eq (hL : L.Ok) (S : List (Tag F)) (t : Tag F) (k : F) :
    D L S t k = if t.drop = true then (if L.tkey t = k then 1 else 0)
      + ((L.visitIf S (L.tdeps t)).map fun a => D L S a k).sum else 0 := by
  rw [D, dpaths]
  congr 2
  congr 1
  refine List.map_congr_left fun a ha => ?_
  rw [D, dpaths_fuel hL S (visit_rank hL ha) (Nat.lt_succ_self _)]

/-- Induction on tags by rank. -/
theorem rank_induction (L : Lib F) {p : Tag F → Prop}
    (h : ∀ t, (∀ a, L.rank (L.tkey a) < L.rank (L.tkey t) → p a) → p t) (t : Tag F) : p t := by
  have : ∀ n, ∀ t, L.rank (L.tkey t) < n → p t := by
    intro n
    induction n with
    | zero => intro t ht; omega
    | succ n ih => exact fun t ht => h t fun a ha => ih a (by omega)
  exact this _ t (Nat.lt_succ_self _)

theorem sum_le {β : Type} {l : List β} {f g : β → ℕ} (h : ∀ b ∈ l, f b ≤ g b) :
    (l.map f).sum ≤ (l.map g).sum := by
  induction l with
  | nil => simp
  | cons b l ih =>
    have h1 := h b (by simp)
    have h2 := ih fun b' hb' => h b' (by simp [hb'])
    simpa using Nat.add_le_add h1 h2

theorem D_le_P (hL : L.Ok) (S : List (Tag F)) (t : Tag F) (k : F) : D L S t k ≤ P L S t k := by
  induction t using rank_induction (L := L) with
  | h t ih =>
    rw [D_eq hL, P_eq hL]
    split
    · rename_i hd
      simp only [hd, true_and]
      exact Nat.add_le_add_left (sum_le fun a ha => ih a (visit_rank hL ha)) _
    · exact Nat.zero_le _

/-- A droppable accumulator that is reached is counted. -/
theorem P_pos (hL : L.Ok) {S : List (Tag F)} {u t : Tag F} (ht : t.drop = true) (h : u = t ∨ Spec.Uses L S u t) :
    0 < P L S u (L.tkey t) := by
  have self : ∀ t : Tag F, t.drop = true → 0 < P L S t (L.tkey t) := by
    intro t ht
    rw [P_eq hL]
    simp [ht]
  have step : ∀ {u a : Tag F}, a ∈ L.visitIf S (L.tdeps u) → ∀ k, P L S a k ≤ P L S u k := by
    intro u a ha k
    rw [P_eq hL S u]
    refine le_trans ?_ (Nat.le_add_left _ _)
    exact List.single_le_sum (by simp) _ (List.mem_map.2 ⟨a, ha, rfl⟩)
  rcases h with rfl | h
  · exact self u ht
  · induction h with
    | @direct u t d hS hd e => exact (self t ht).trans_le (step (mem_visit_deps.2 ⟨hS, d, hd, e⟩) _)
    | @step u a t d hS hd e _ ih => exact (ih ht).trans_le (step (mem_visit_deps.2 ⟨hS, d, hd, e⟩) _)

/-- Conversely only accumulators that are used are counted. -/
theorem P_zero (hL : L.Ok) {S : List (Tag F)} (hnd : (S.map L.tkey).Nodup) {u t : Tag F} (hu : u ∈ S) (ht : t ∈ S)
    (h : ¬ (u = t ∨ Spec.Uses L S u t)) : P L S u (L.tkey t) = 0 := by
  induction u using rank_induction (L := L) with
  | h u ih =>
    rw [P_eq hL]
    have h1 : ¬ (u.drop = true ∧ L.tkey u = L.tkey t) := fun hh => h (Or.inl
      (List.inj_on_of_nodup_map hnd hu ht hh.2))
    rw [if_neg h1, zero_add]
    refine List.sum_eq_zero fun x hx => ?_
    obtain ⟨a, ha, rfl⟩ := List.mem_map.1 hx
    obtain ⟨haS, d, hd, e⟩ := mem_visit_deps.1 ha
    refine ih a (visit_rank hL ha) haS fun hc => h (Or.inr ?_)
    rcases hc with rfl | hc
    · exact .direct haS hd e
    · exact .step haS hd e hc

/-- Dropping follows exactly the counted paths when everything reached is droppable. -/
theorem D_eq_P (hL : L.Ok) {S : List (Tag F)} {u : Tag F} (hu : u.drop = true)
    (h : ∀ t, Spec.Uses L S u t → t.drop = true) (k : F) : D L S u k = P L S u k := by
  induction u using rank_induction (L := L) with
  | h u ih =>
    rw [D_eq hL, P_eq hL, if_pos hu]
    simp only [hu, true_and]
    congr 2
    refine List.map_congr_left fun a ha => ?_
    obtain ⟨haS, d, hd, e⟩ := mem_visit_deps.1 ha
    exact ih a (visit_rank hL ha) (h a (.direct haS hd e)) fun t ht => h t (.step haS hd e ht)

/-! ### Dropping subtracts -/

theorem foldlM_sub {β : Type} {f : (F → ℕ) → β → Res (F → ℕ)} {p : β → F → ℕ}
    (l : List β) (hf : ∀ b ∈ l, ∀ c, (∀ k, p b k ≤ c k) → f c b = .val fun k => c k - p b k) (c : F → ℕ)
    (hc : ∀ k, (l.map fun b => p b k).sum ≤ c k) :
    l.foldlM f c = .val fun k => c k - (l.map fun b => p b k).sum := by
  induction l generalizing c with
  | nil => simp
  | cons b l ih =>
    have h1 : ∀ k, p b k ≤ c k := fun k => by
      have := hc k
      simp only [List.map_cons, List.sum_cons] at this
      omega
    rw [List.foldlM_cons, hf b (by simp) c h1, Res.val_bind,
      ih (fun b' hb' => hf b' (by simp [hb']))]
    · congr 1
      funext k
      simp only [List.map_cons, List.sum_cons]
      omega
    · intro k
      have := hc k
      simp only [List.map_cons, List.sum_cons] at this
      omega

theorem drop1_eq {c : F → ℕ} {t : Tag F} (ht : t.drop = true) (hc : 0 < c (L.tkey t)) :
    L.drop1 c t = .val fun k => c k - if L.tkey t = k then 1 else 0 := by
  rw [drop1, if_pos ht, if_neg (by omega)]
  congr 1
  funext k
  by_cases hk : L.tkey t = k
  · subst hk; simp
  · simp [hk, Function.update_of_ne (Ne.symm hk)]

theorem dropRef_eq (S : List (Tag F)) (n : ℕ) (c : F → ℕ) (t : Tag F) (hc : ∀ k, dpaths L S n t k ≤ c k) :
    L.dropRef S n c t = .val fun k => c k - dpaths L S n t k := by
  induction n generalizing c t with
  | zero => simp [dropRef, dpaths]
  | succ n ih =>
    rw [dropRef]
    by_cases hd : t.drop = true
    · rw [if_pos hd]
      have hc' : ∀ k, (if L.tkey t = k then 1 else 0)
          + ((L.visitIf S (L.tdeps t)).map fun a => dpaths L S n a k).sum ≤ c k := by
        intro k
        have := hc k
        rwa [dpaths, if_pos hd] at this
      have h0 : 0 < c (L.tkey t) := by
        have := hc' (L.tkey t)
        rw [if_pos rfl] at this
        omega
      rw [drop1_eq hd h0, Res.val_bind, foldlM_sub _ (fun b _ c hb => ih c b hb)]
      · congr 1
        funext k
        rw [dpaths, if_pos hd]
        omega
      · intro k
        have := hc' k
        omega
    · rw [if_neg hd]
      congr 1
      funext k
      rw [dpaths, if_neg hd]
      omega

/-- What `drop<f>` subtracts when the accumulator providing `f` is `t`. -/
def Q (L : Lib F) (S : List (Tag F)) (t : Tag F) (k : F) : ℕ :=
  (if L.tkey t = k then 1 else 0)
    + ((L.visitIf S (L.tdeps ⟨L.tkey t, false⟩)).map fun a => D L S a k).sum

theorem find_eq {S : List (Tag F)} (hnd : (S.map L.tkey).Nodup) {t : Tag F} (ht : t ∈ S) {f : Tag F}
    (hf : L.tkey f = L.tkey t) : L.find S f = some t := by
  unfold find
  induction S with
  | nil => simp at ht
  | cons a S ih =>
    rw [List.map_cons, List.nodup_cons] at hnd
    rcases List.mem_cons.1 ht with rfl | ht
    · simp [hf]
    · have hne : L.tkey f ≠ L.tkey a := by
        intro e
        exact hnd.1 (List.mem_map.2 ⟨t, ht, by rw [← hf, e]⟩)
      rw [List.find?_cons_of_neg (by simp [hne])]
      exact ih hnd.2 ht

theorem dropFeature_eq {S : List (Tag F)} (hnd : (S.map L.tkey).Nodup) {t : Tag F} (ht : t ∈ S)
    (hd : t.drop = true) {f : Tag F} (hf : L.tkey f = L.tkey t) (c : F → ℕ) (hc : ∀ k, Q L S t k ≤ c k) :
    L.dropFeature S c f = .val fun k => c k - Q L S t k := by
  have h0 : 0 < c (L.tkey t) := by
    have := hc (L.tkey t)
    rw [Q, if_pos rfl] at this
    omega
  rw [dropFeature, find_eq hnd ht hf]
  dsimp only
  rw [drop1_eq hd h0, Res.val_bind, hf, foldlM_sub (p := D L S)]
  · congr 1
    funext k
    rw [Q]
    omega
  · intro b _ c hb
    rw [dropRef_eq S _ c b hb]
    rfl
  · intro k
    have := hc k
    rw [Q] at this
    omega

theorem sublist_sum_le {β : Type} {l l' : List β} (h : l.Sublist l') (f : β → ℕ) :
    (l.map f).sum ≤ (l'.map f).sum :=
  (h.map f).sum_le_sum (by simp)

theorem Q_le_P (hL : L.Ok) (S : List (Tag F)) {t : Tag F} (hd : t.drop = true)
    (hcov : ∀ d ∈ L.deps (L.tkey t), ∃ d' ∈ L.deps t.base, L.tkey d' = L.tkey d) (k : F) :
    Q L S t k ≤ P L S t k := by
  rw [Q, P_eq hL]
  simp only [hd, true_and]
  refine Nat.add_le_add_left ?_ _
  refine (sublist_sum_le ?_ _).trans (sum_le fun a _ => D_le_P hL S a k)
  unfold visitIf
  refine List.monotone_filter_right _ fun a ha => ?_
  simp only [decide_eq_true_eq] at ha ⊢
  rw [tkey_mem_tdeps] at ha ⊢
  obtain ⟨d, h1, h2⟩ := ha
  obtain ⟨d', h3, h4⟩ := hcov d h1
  exact ⟨d', h3, h4.trans h2⟩

theorem Q_eq_P (hL : L.Ok) (S : List (Tag F)) {t : Tag F} (hd : t.drop = true)
    (hcov : ∀ d ∈ L.deps (L.tkey t), ∃ d' ∈ L.deps t.base, L.tkey d' = L.tkey d)
    (hcov' : ∀ d ∈ L.deps t.base, ∃ d' ∈ L.deps (L.tkey t), L.tkey d' = L.tkey d)
    (hall : ∀ a, Spec.Uses L S t a → a.drop = true) (k : F) :
    Q L S t k = P L S t k := by
  rw [Q, P_eq hL]
  simp only [hd, true_and]
  congr 1
  have : L.visitIf S (L.tdeps ⟨L.tkey t, false⟩) = L.visitIf S (L.tdeps t) := by
    unfold visitIf
    refine List.filter_congr fun a _ => ?_
    rw [decide_eq_decide, tkey_mem_tdeps, tkey_mem_tdeps]
    constructor
    · rintro ⟨d, h1, h2⟩
      obtain ⟨d', h3, h4⟩ := hcov d h1
      exact ⟨d', h3, h4.trans h2⟩
    · rintro ⟨d, h1, h2⟩
      obtain ⟨d', h3, h4⟩ := hcov' d h1
      exact ⟨d', h3, h4.trans h2⟩
  rw [this]
  refine congrArg _ (List.map_congr_left fun a ha => ?_)
  obtain ⟨haS, d, hd', e⟩ := mem_visit_deps.1 ha
  exact D_eq_P hL (hall a (.direct haS hd' e)) (fun t ht => hall t (.step haS hd' e ht)) k

theorem initRefs_eq (S req : List (Tag F)) (k : F) :
    L.initRefs S req k = ((L.visitIf S req).map fun u => P L S u k).sum := by
  unfold initRefs
  rw [foldl_add (p := P L S) _ (fun b _ c => addRef_eq S _ c b)]
  simp

/-- Dropping a list of accumulators, each at most once. -/
theorem drops_eq {S : List (Tag F)} (hnd : (S.map L.tkey).Nodup) (fs : List (Tag F))
    (prov : Tag F → Tag F) (hp : ∀ f ∈ fs, prov f ∈ S ∧ (prov f).drop = true ∧ L.tkey f = L.tkey (prov f))
    (c : F → ℕ) (hc : ∀ k, (fs.map fun f => Q L S (prov f) k).sum ≤ c k) :
    fs.foldlM (L.dropFeature S) c = .val fun k => c k - (fs.map fun f => Q L S (prov f) k).sum :=
  foldlM_sub (p := fun f => Q L S (prov f)) fs (fun f hf c' hc' => by
    obtain ⟨h1, h2, h3⟩ := hp f hf
    exact dropFeature_eq hnd h1 h2 h3 c' hc') c hc

end Lib

end Acc
