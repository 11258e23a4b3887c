import Verif.Model.Wrappers
import Verif.Props.StdSets

/-!
# C49–C51: construction order, cached results, external accumulators
-/

namespace Acc

/-! ## C49 -/

section build
variable {F : Type}

theorem mem_buildTemps (hf : ℕ → Bool) (S : List (Tag F)) (ev : BuildEvent F) :
    ev ∈ buildTemps hf S ↔ ∃ t ∈ S, ev = .ctor t := by
  induction S with
  | nil => simp [buildTemps]
  | cons t l ih =>
    unfold buildTemps
    split <;> simp only [List.mem_cons, List.mem_append, ih, List.not_mem_nil, or_false] <;>
      constructor <;> (try rintro (rfl | ⟨t', h, rfl⟩)) <;> (try rintro (⟨t', h, rfl⟩ | rfl)) <;>
      (try exact ⟨_, Or.inl rfl, rfl⟩) <;> (try exact ⟨_, Or.inr h, rfl⟩) <;>
      (rintro ⟨t', rfl | h, rfl⟩) <;>
      first
      | exact Or.inl rfl
      | exact Or.inr rfl
      | exact Or.inr ⟨_, h, rfl⟩
      | exact Or.inl ⟨_, h, rfl⟩

/-- C49: whatever order of evaluation the compiler chooses, while an accumulator is being constructed none of the
accumulators of the set is in the set yet; in particular none of those it depends on.  (The documentation
promises the contrary.) -/
theorem C49_none_accessible (hf : ℕ → Bool) (S : List (Tag F)) {pre post : List (BuildEvent F)} {t : Tag F}
    (h : buildSet hf S = pre ++ .ctor t :: post) : ∀ u : Tag F, .store u ∉ pre := by
  intro u hu
  unfold buildSet at h
  rw [List.append_eq_append_iff] at h
  rcases h with ⟨as, h1, h2⟩ | ⟨bs, h1, h2⟩
  · -- the constructor would be among the stores
    have : BuildEvent.ctor t ∈ S.map BuildEvent.store := by rw [h2]; simp
    obtain ⟨x, -, hx⟩ := List.mem_map.1 this
    cases hx
  · have : BuildEvent.store u ∈ buildTemps hf S := by rw [h1]; simp [hu]
    obtain ⟨x, -, hx⟩ := (mem_buildTemps hf S _).1 this
    cases hx

/-- C49: every accumulator is nevertheless constructed exactly once and stored exactly once. -/
theorem C49_each_once [DecidableEq F] (hf : ℕ → Bool) (S : List (Tag F)) :
    (buildSet hf S).Perm (S.map .ctor ++ S.map .store) := by
  unfold buildSet
  refine List.Perm.append_right _ ?_
  induction S with
  | nil => exact List.Perm.refl _
  | cons t l ih =>
    unfold buildTemps
    split
    · exact ih.cons _
    · exact (List.perm_append_singleton _ _).trans (ih.cons _)

/-- C49: nor are the temporaries constructed in dependency order, with a compiler that evaluates arguments from
right to left: here `mean` is constructed before the `count` and `sum` it depends on. -/
theorem C49_order_reversed :
    buildSet (fun _ => false) (stdLib.accumulators false id [tg .mean])
      = [.ctor (tg .mean), .ctor (tg .sum), .ctor (tg .count), .store (tg .count), .store (tg .sum),
         .store (tg .mean)] := by
  decide +kernel

/-- The hypothesis of `C49_none_accessible` is met by every accumulator. -/
example : buildSet (fun _ => true) (stdLib.accumulators false id [tg .mean])
    = [.ctor (tg .count), .ctor (tg .sum)] ++ .ctor (tg .mean) ::
      [.store (tg .count), .store (tg .sum), .store (tg .mean)] := by
  decide +kernel

end build

/-! ## C50 -/

section cached
variable {S A E R : Type} (I : Inner S A E R)

namespace Cached

/-- After the last reference is gone the object does not change any more, except for references being added. -/
theorem dropped_step {c c' : Cached S R} {r : R} (hr : c.cache = some r) (h0 : c.refs = 0) {op : Op A × E}
    (hop : op.1 ≠ .addRef) (h : step I c op = .val c') : c'.cache = some r ∧ c'.refs = 0 ∧ c'.inner = c.inner := by
  obtain ⟨op, e⟩ := op
  cases op with
  | push a =>
    simp only [step, push, h0, if_true, Res.val.injEq] at h
    subst h
    exact ⟨hr, h0, rfl⟩
  | addRef => exact absurd rfl hop
  | drop => simp [step, drop, h0] at h
  | copy =>
    simp only [step, copy, hasResult, h0, decide_true, if_true, get, hr, Res.bind, Res.val.injEq] at h
    subst h
    exact ⟨rfl, rfl, rfl⟩

theorem dropped_run {ops : List (Op A × E)} (hops : ∀ op ∈ ops, op.1 ≠ .addRef) :
    ∀ {c c' : Cached S R} {r : R}, c.cache = some r → c.refs = 0 → run I c ops = .val c' →
      c'.cache = some r ∧ c'.refs = 0 := by
  induction ops with
  | nil =>
    intro c c' r hr h0 h
    change Res.val _ = Res.val _ at h
    injection h with h
    subst h
    exact ⟨hr, h0⟩
  | cons op ops ih =>
    intro c c' r hr h0 h
    rw [run, List.foldlM_cons] at h
    cases hs : step I c op with
    | val c1 =>
      rw [hs, Res.val_bind] at h
      obtain ⟨h1, h2, -⟩ := dropped_step I hr h0 (hops op (by simp)) hs
      exact ih (fun o ho => hops o (by simp [ho])) h1 h2 h
    | nonfinite => rw [hs] at h; cases h
    | thrown => rw [hs] at h; cases h
    | ub => rw [hs] at h; cases h
    | diverges => rw [hs] at h; cases h

/-- C50: from the drop that takes the last reference on, the result is the one the accumulator had at that moment,
whatever is pushed, whatever the rest of the set does, and also for copies.
Partial: for an accumulator that got to that point at all; `C50_construct_ub` shows that a set containing one cannot
even be constructed. -/
theorem C50_cached_partial {c c' c'' : Cached S R} {e : E} (h1 : c.refs = 1) (hd : drop I c e = .val c')
    {ops : List (Op A × E)} (hops : ∀ op ∈ ops, op.1 ≠ .addRef) (hrun : run I c' ops = .val c'') (e' : E) :
    result I c'' e' = result I c e := by
  have hc : c' = ⟨c.inner, 0, some (I.result c.inner e)⟩ := by
    simp only [drop, h1, hasResult] at hd
    simp at hd
    exact hd.symm
  subst hc
  obtain ⟨h2, h3⟩ := dropped_run I hops rfl rfl hrun
  simp [result, hasResult, get, h1, h2, h3]

/-- C50: until then the result is the live one. -/
theorem C50_live {c : Cached S R} (h : 0 < c.refs) (e : E) : result I c e = .val (I.result c.inner e) := by
  have : c.refs ≠ 0 := by omega
  simp [result, hasResult, this]

/-- C50: every accumulator of a set is constructed as a temporary and copied into the set (see C49), at a time when
its count is still zero; the copy constructor takes this for "dropped" and reads a result that was never stored. -/
theorem C50_construct_ub (s : S) : (Cached.fresh s : Cached S R).copy = .ub := by
  simp [fresh, copy, hasResult, get, Res.bind]

/-- The situation of `C50_cached_partial`: a running maximum of values read elsewhere, one reference; two samples,
then the drop, then another sample. -/
example :
    let I : Inner ℕ ℕ ℕ ℕ := ⟨fun s a e => max s (a + e), fun s e => s + e⟩
    (run I ⟨3, 1, none⟩ [(.push 5, 1), (.drop, 2)]).bind (fun c => .val (c.refs, c.cache)) = .val (0, some 8) ∧
    ((run I ⟨3, 1, none⟩ [(.push 5, 1), (.drop, 2), (.push 70, 1), (.copy, 5)]).bind
      fun c => result I c 1000) = .val 8 := by
  decide

end Cached

end cached

/-! ## C51 -/

section external
variable {Loc S A R V : Type} [DecidableEq Loc]

namespace RefWorld

/-- The samples of a history that went to the set at `l`. -/
def samplesTo (l : Loc) : List (Op Loc A) → List A
  | [] => []
  | .own _ :: ops => samplesTo l ops
  | .other l' a :: ops => if l' = l then a :: samplesTo l ops else samplesTo l ops

theorem run_heap (upd : S → A → S) (ops : List (Op Loc A)) (s : RefWorld Loc S V) (l : Loc) :
    (run upd s ops).heap l = (samplesTo l ops).foldl upd (s.heap l) ∧ (run upd s ops).ref = s.ref ∧
      (run upd s ops).val = s.val := by
  induction ops generalizing s with
  | nil => exact ⟨rfl, rfl, rfl⟩
  | cons op ops ih =>
    obtain ⟨h1, h2, h3⟩ := ih (step upd s op)
    rw [run, List.foldl_cons, ← run, h1, h2, h3]
    cases op with
    | own a => exact ⟨rfl, rfl, rfl⟩
    | other l' a =>
      refine ⟨?_, rfl, rfl⟩
      by_cases h : l' = l
      · subst h
        simp [step, samplesTo]
      · simp [step, samplesTo, h, Function.update_of_ne (Ne.symm h)]

/-- C51: at any time, after any interleaving of pushes to the sets, an external feature is the result of the feature
in the set passed by name, or else in the set the referring set was constructed with, having seen exactly the
samples pushed to that set; pushes to the referring set have no influence.  A value is the one given to the
constructor. -/
theorem C51_external (upd : S → A → S) (result : S → R) (heap : Loc → S) (own : S) (ref : Loc) (v : V)
    (ops : List (Op Loc A)) :
    external result (run upd (construct heap own ref v) ops) none
      = result ((samplesTo ref ops).foldl upd (heap ref)) ∧
    (∀ l, external result (run upd (construct heap own ref v) ops) (some l)
      = result ((samplesTo l ops).foldl upd (heap l))) ∧
    value (run upd (construct heap own ref v) ops) = v := by
  refine ⟨?_, fun l => ?_, ?_⟩
  · obtain ⟨-, h2, -⟩ := run_heap upd ops (construct heap own ref v) ref
    obtain ⟨h1, -, -⟩ := run_heap upd ops (construct heap own ref v) (construct heap own ref v).ref
    rw [external, h2, h1]
    rfl
  · obtain ⟨h1, -, -⟩ := run_heap upd ops (construct heap own ref v) l
    rw [external, h1]
    rfl
  · obtain ⟨-, -, h3⟩ := run_heap upd ops (construct heap own ref v) ref
    rw [value, h3]
    rfl

/-- C51: pushing to the referring set changes neither. -/
theorem C51_own_push (upd : S → A → S) (result : S → R) (s : RefWorld Loc S V) (a : A) (named : Option Loc) :
    external result (step upd s (.own a)) named = external result s named ∧
      value (step upd s (.own a)) = value s := by
  cases named <;> exact ⟨rfl, rfl⟩

/-- Two sets of sums; the referring set sees the one at `true` by reference. -/
example :
    external id (run (fun s a => s + a) (construct (fun _ : Bool => (0 : ℤ)) 0 true "v")
      [.other true 2, .own 100, .other false 30, .other true 5]) none = 7 ∧
    external id (run (fun s a => s + a) (construct (fun _ : Bool => (0 : ℤ)) 0 true "v")
      [.other true 2, .own 100, .other false 30, .other true 5]) (some false) = 30 := by
  decide

end RefWorld

end external

end Acc
