import Verif.Infer.Spec

/-!
# The stack of type variable replacements (C19)

Model of `/repo/spade-typeinference/src/replacement.rs` and of the way
`/repo/spade-typeinference/src/lib.rs` uses it. The real `get` takes `&self` but writes through a
lock; the model returns the new stack.
-/

namespace Spade.Infer

open Spec (Op AState Balanced BalancedFrom)

/-- Models `Replacements`, `replacement.rs:8-11`: a hash map from variables to variables. Kept as a
list of entries with the newest first; an entry shadows older ones with the same key, which is what
`HashMap::insert` does. -/
abbrev RMap := List (Nat × Nat)

/-- Models `ReplacementStack`, `replacement.rs:21-24`, with the last element of the vector first. -/
abbrev RStack := List RMap

/-- Models `ReplacementStack::new`, `replacement.rs:27-31`. -/
def RStack.new : RStack := [[]]

/-- Models `ReplacementStack::push`, `replacement.rs:33-35`. -/
def RStack.push (s : RStack) : RStack := [] :: s

/-- Models `ReplacementStack::discard_top`, `replacement.rs:37-39` (popping an empty vector does
nothing). -/
def RStack.discardTop (s : RStack) : RStack := s.tail

/-- Models `ReplacementStack::insert`, `replacement.rs:41-49`; `none` is the panic of `expect`. -/
def RStack.insert (s : RStack) (src dst : Nat) : Option RStack :=
  match s with
  | [] => none
  | top :: rest => some (((src, dst) :: top) :: rest)

/-- Models the search `self.inner.iter().rev().find_map(…)` in `get`, `replacement.rs:59-62`. -/
def RStack.look (s : RStack) (key : Nat) : Option Nat :=
  s.findSome? (fun m => m.lookup key)

/-- Models the `while let` loop of `get`, `replacement.rs:57-66`. The loop does not terminate when
the replacements are cyclic; the model gives up (`none`) after `fuel` steps, and the theorems show
that this does not happen. -/
def RStack.walk (s : RStack) : Nat → Nat → List Nat → Option (Nat × List Nat)
  | fuel, key, seen =>
    match s.look key with
    | none => some (key, seen)
    | some target =>
      match fuel with
      | 0 => none
      | fuel + 1 => RStack.walk s fuel target (seen ++ [key])

/-- Models the path compression in `get`, `replacement.rs:68-72`. -/
def compress (top : RMap) (seen : List Nat) (target : Nat) : RMap :=
  seen.foldl (fun m key => (key, target) :: m) top

/-- Models `ReplacementStack::get`, `replacement.rs:51-74`; `none` is the panic of `expect`, or an
endless loop. -/
def RStack.get (s : RStack) (key : Nat) : Option (Nat × RStack) :=
  match s with
  | [] => none
  | top :: rest =>
    match RStack.walk s s.flatten.length key [] with
    | none => none
    | some (target, seen) => some (target, compress top seen target :: rest)

/-- One operation, as inference performs it: `insert` (`lib.rs:3325-3335`), `get_replacement`
(`lib.rs:3722-3724`), `checkpoint` and `restore` (`lib.rs:3739-3769`, the part about replacements). -/
def RStack.step (s : RStack) : Op → Option (Option Nat × RStack)
  | .bind src dst => (s.insert src dst).map (fun s' => (none, s'))
  | .ask v => (s.get v).map (fun r => (some r.1, r.2))
  | .checkpoint => some (none, s.push)
  | .restore => some (none, s.discardTop)

/-- The answers along a history; `none` when some operation panics or does not return. -/
def RStack.run : RStack → List Op → Option (List (Option Nat))
  | _, [] => some []
  | s, op :: ops =>
    match s.step op with
    | none => none
    | some (a, s') => (RStack.run s' ops).map (fun as => a :: as)

/-! ## Chains of replacements -/

/-- `Chain s k t l`: following replacements from `k` ends at `t`; `l` are the variables passed. -/
inductive Chain (s : RStack) : Nat → Nat → List Nat → Prop
  | stop {k} : s.look k = none → Chain s k k []
  | step {k k' t l} : s.look k = some k' → Chain s k' t l → Chain s k t (k :: l)

theorem Chain.unique {s : RStack} {k t l} (h : Chain s k t l) :
    ∀ {t' l'}, Chain s k t' l' → t = t' ∧ l = l' := by
  induction h with
  | stop h =>
    intro t' l' h'
    cases h' with
    | stop _ => exact ⟨rfl, rfl⟩
    | step h1 _ => simp [h] at h1
  | step h _ ih =>
    intro t' l' h'
    cases h' with
    | stop h1 => simp [h] at h1
    | step h1 h2 =>
      rw [h] at h1
      cases h1
      obtain ⟨rfl, rfl⟩ := ih h2
      exact ⟨rfl, rfl⟩

theorem Chain.end_root {s : RStack} {k t l} (h : Chain s k t l) : s.look t = none := by
  induction h with
  | stop h => exact h
  | step _ _ ih => exact ih

theorem Chain.suffix {s : RStack} {k t l} (h : Chain s k t l) :
    ∀ x ∈ l, ∃ l', Chain s x t l' ∧ l'.length ≤ l.length ∧ s.look x ≠ none := by
  induction h with
  | stop _ => intro x hx; cases hx
  | step h h2 ih =>
    intro x hx
    rcases List.mem_cons.1 hx with rfl | hx
    · exact ⟨_, .step h h2, Nat.le_refl _, by simp [h]⟩
    · obtain ⟨l', h1, h3, h4⟩ := ih x hx
      exact ⟨l', h1, Nat.le_succ_of_le h3, h4⟩

theorem Chain.nodup {s : RStack} {k t l} (h : Chain s k t l) : l.Nodup := by
  induction h with
  | stop _ => exact List.nodup_nil
  | @step k k' t l h h2 ih =>
    refine List.nodup_cons.2 ⟨?_, ih⟩
    intro hk
    obtain ⟨l', h1, h3, _⟩ := h2.suffix k hk
    obtain ⟨_, h4⟩ := h1.unique (.step h h2)
    subst h4
    simp only [List.length_cons] at h3
    omega

theorem lookup_mem_keys {m : RMap} {k t : Nat} (h : m.lookup k = some t) :
    k ∈ m.map (fun e => e.1) := by
  induction m with
  | nil => simp at h
  | cons e m ih =>
    obtain ⟨a, b⟩ := e
    simp only [List.lookup_cons] at h
    simp only [List.map_cons, List.mem_cons]
    by_cases hk : k = a
    · exact Or.inl hk
    · have : (k == a) = false := by simpa using hk
      simp only [this] at h
      exact Or.inr (ih h)

theorem look_mem_keys {s : RStack} {k : Nat} (h : s.look k ≠ none) :
    k ∈ s.flatten.map (fun e => e.1) := by
  induction s with
  | nil => simp [RStack.look] at h
  | cons m s ih =>
    simp only [RStack.look, List.findSome?_cons] at h
    simp only [List.flatten_cons, List.map_append, List.mem_append]
    cases hm : m.lookup k with
    | some t => exact Or.inl (lookup_mem_keys hm)
    | none =>
      simp only [hm] at h
      exact Or.inr (ih h)

theorem nodup_length_le : ∀ {l m : List Nat}, l.Nodup → (∀ x ∈ l, x ∈ m) → l.length ≤ m.length
  | [], _, _, _ => Nat.zero_le _
  | x :: l, m, hn, hs => by
    obtain ⟨hx, hn⟩ := List.nodup_cons.1 hn
    have hm := hs x List.mem_cons_self
    have := nodup_length_le (l := l) (m := m.erase x) hn (by
      intro y hy
      have hne : y ≠ x := fun h => hx (h ▸ hy)
      exact (List.mem_erase_of_ne hne).2 (hs y (List.mem_cons_of_mem _ hy)))
    rw [List.length_erase_of_mem hm] at this
    have hp : 0 < m.length := List.length_pos_of_mem hm
    simp only [List.length_cons]
    omega

theorem Chain.length_le {s : RStack} {k t l} (h : Chain s k t l) :
    l.length ≤ s.flatten.length := by
  have := nodup_length_le (m := s.flatten.map (fun e => e.1)) h.nodup (by
    intro x hx
    obtain ⟨_, _, _, h4⟩ := h.suffix x hx
    exact look_mem_keys h4)
  rwa [List.length_map] at this

theorem walk_of_chain {s : RStack} {k t l} (h : Chain s k t l) :
    ∀ fuel seen, l.length ≤ fuel → s.walk fuel k seen = some (t, seen ++ l) := by
  induction h with
  | stop h =>
    intro fuel seen _
    unfold RStack.walk
    simp [h]
  | step h _ ih =>
    intro fuel seen hf
    cases fuel with
    | zero => simp at hf
    | succ f =>
      unfold RStack.walk
      simp only [h]
      rw [ih f _ (by simpa using hf)]
      simp

theorem lookup_compress (top : RMap) (t : Nat) :
    ∀ (seen : List Nat) (k : Nat),
      (compress top seen t).lookup k = if k ∈ seen then some t else top.lookup k := by
  intro seen
  induction seen generalizing top with
  | nil => intro k; simp [compress]
  | cons x seen ih =>
    intro k
    have := ih ((x, t) :: top) k
    simp only [compress, List.foldl_cons] at this ⊢
    rw [this]
    by_cases h1 : k ∈ seen
    · simp [h1]
    · by_cases h2 : k = x
      · subst h2; simp
      · have : (k == x) = false := by simpa using h2
        simp [h1, h2, this, List.lookup_cons]

theorem look_compress (top : RMap) (rest : RStack) (seen : List Nat) (t k : Nat) :
    RStack.look (compress top seen t :: rest) k =
      if k ∈ seen then some t else RStack.look (top :: rest) k := by
  simp only [RStack.look, List.findSome?_cons, lookup_compress]
  by_cases h : k ∈ seen <;> simp [h]

/-- Every variable resolves to `R` of it. -/
def Resolves (s : RStack) (R : Nat → Nat) : Prop := ∀ k, ∃ l, Chain s k (R k) l

theorem chain_compress {top : RMap} {rest : RStack} {key t : Nat} {seen : List Nat}
    (hc : Chain (top :: rest) key t seen) {k u l} (h : Chain (top :: rest) k u l) :
    ∃ l', Chain (compress top seen t :: rest) k u l' := by
  have hroot : t ∉ seen := by
    intro ht
    obtain ⟨_, _, _, h4⟩ := hc.suffix t ht
    exact h4 hc.end_root
  induction h with
  | @stop k h =>
    refine ⟨[], .stop ?_⟩
    rw [look_compress, if_neg]
    · exact h
    · intro hk
      obtain ⟨_, _, _, h4⟩ := hc.suffix k hk
      exact h4 h
  | @step k k' u l h h2 ih =>
    by_cases hk : k ∈ seen
    · obtain ⟨l', h1, _, _⟩ := hc.suffix k hk
      obtain ⟨rfl, _⟩ := h1.unique (.step h h2)
      refine ⟨[k], .step (k' := t) ?_ (.stop ?_)⟩
      · rw [look_compress, if_pos hk]
      · rw [look_compress, if_neg hroot]
        exact hc.end_root
    · obtain ⟨l', ih⟩ := ih
      refine ⟨_, .step (k' := k') ?_ ih⟩
      rw [look_compress, if_neg hk]
      exact h

theorem look_insert (top : RMap) (rest : RStack) (src dst k : Nat) :
    RStack.look (((src, dst) :: top) :: rest) k =
      if k = src then some dst else RStack.look (top :: rest) k := by
  simp only [RStack.look, List.findSome?_cons, List.lookup_cons]
  by_cases h : k = src
  · subst h; simp
  · have : (k == src) = false := by simpa using h
    simp [h, this]

theorem chain_insert_ne {top : RMap} {rest : RStack} {src dst : Nat}
    (hroot : RStack.look (top :: rest) src = none) {k u l} (h : Chain (top :: rest) k u l)
    (hu : u ≠ src) : ∃ l', Chain (((src, dst) :: top) :: rest) k u l' := by
  induction h with
  | @stop k h => exact ⟨[], .stop (by rw [look_insert, if_neg hu]; exact h)⟩
  | @step k k' u l h h2 ih =>
    obtain ⟨l', ih⟩ := ih hu
    refine ⟨_, .step (k' := k') ?_ ih⟩
    rw [look_insert, if_neg]
    · exact h
    · rintro rfl; simp [hroot] at h

theorem chain_insert_eq {top : RMap} {rest : RStack} {src dst d : Nat}
    (hroot : RStack.look (top :: rest) src = none) {ld}
    (hd : Chain (top :: rest) dst d ld) (hne : d ≠ src) {k u l} (h : Chain (top :: rest) k u l)
    (hu : u = src) : ∃ l', Chain (((src, dst) :: top) :: rest) k d l' := by
  induction h with
  | @stop k h =>
    subst hu
    obtain ⟨l', h'⟩ := chain_insert_ne (dst := dst) hroot hd hne
    exact ⟨_, .step (k' := dst) (by rw [look_insert, if_pos rfl]) h'⟩
  | @step k k' u l h h2 ih =>
    obtain ⟨l', ih⟩ := ih hu
    refine ⟨_, .step (k' := k') ?_ ih⟩
    rw [look_insert, if_neg]
    · exact h
    · rintro rfl; simp [hroot] at h

/-- The stack agrees with what the abstract machine remembers: each level, together with the levels
below it, resolves variables as the abstract machine says. -/
inductive Agrees : RStack → (Nat → Nat) → List (Nat → Nat) → Prop
  | one {m R} : Resolves [m] R → Agrees [m] R []
  | more {m s R R' rs} : Resolves (m :: s) R → Agrees s R' rs → Agrees (m :: s) R (R' :: rs)

theorem Agrees.resolves {s R rs} (h : Agrees s R rs) : Resolves s R := by
  cases h <;> assumption

theorem Agrees.replaceTop {m : RMap} {s R rs} (h : Agrees (m :: s) R rs) {m' R'}
    (h' : Resolves (m' :: s) R') : Agrees (m' :: s) R' rs := by
  cases h with
  | one _ => exact .one h'
  | more _ h2 => exact .more h' h2

theorem Agrees.ne_nil {s R rs} (h : Agrees s R rs) : ∃ m s', s = m :: s' := by
  cases h
  · exact ⟨_, _, rfl⟩
  · exact ⟨_, _, rfl⟩

/-- One operation of the real stack does what the abstract machine does. -/
theorem step_agrees {s : RStack} {a : AState} (h : Agrees s a.now a.saved) {op : Op}
    (ha : a.Allowed op) :
    ∃ s', s.step op = some ((a.step op).1, s') ∧ Agrees s' (a.step op).2.now (a.step op).2.saved := by
  obtain ⟨m, s, rfl⟩ := h.ne_nil
  have hr := h.resolves
  cases op with
  | bind src dst =>
    obtain ⟨h1, h2⟩ := ha
    refine ⟨((src, dst) :: m) :: s, rfl, h.replaceTop ?_⟩
    obtain ⟨lr, hroot⟩ := hr src
    rw [h1] at hroot
    obtain ⟨ld, hd⟩ := hr dst
    intro k
    obtain ⟨l, hk⟩ := hr k
    simp only [AState.step]
    split
    next heq => exact chain_insert_eq hroot.end_root hd h2 hk heq
    next hne => exact chain_insert_ne hroot.end_root hk hne
  | ask v =>
    obtain ⟨l, hv⟩ := hr v
    refine ⟨compress m l (a.now v) :: s, ?_, h.replaceTop ?_⟩
    · simp only [RStack.step, RStack.get, walk_of_chain hv _ [] hv.length_le, List.nil_append,
        Option.map_some, AState.step]
    · intro k
      obtain ⟨lk, hk⟩ := hr k
      exact chain_compress hv hk
  | checkpoint =>
    refine ⟨[] :: m :: s, rfl, .more ?_ h⟩
    intro k
    obtain ⟨lk, hk⟩ := hr k
    refine ⟨lk, ?_⟩
    have hl : ∀ k, RStack.look ([] :: m :: s) k = RStack.look (m :: s) k := by
      intro k; simp [RStack.look, List.findSome?_cons]
    simp only [AState.step]
    clear h ha
    revert hk
    generalize a.now k = t
    intro hk
    induction hk with
    | stop h => exact .stop (by rw [hl]; exact h)
    | step h _ ih => exact .step (by rw [hl]; exact h) ih
  | restore =>
    obtain ⟨now, saved⟩ := a
    cases h with
    | one _ => simp [AState.Allowed] at ha
    | more _ h2 => exact ⟨s, rfl, h2⟩

/-- C19: along every history of bindings, lookups, checkpoints and restores that makes sense, every
lookup returns, and returns what the abstract machine returns. In that machine a lookup changes
nothing, a binding redirects exactly the variables that stood for the bound one, and restoring goes
back to what every variable stood for at the checkpoint. -/
theorem C19_lookups_follow_spec (ops : List Op) (h : AState.init.AllAllowed ops) :
    RStack.new.run ops = some (AState.init.run ops) := by
  have key : ∀ (ops : List Op) (s : RStack) (a : AState), Agrees s a.now a.saved →
      a.AllAllowed ops → s.run ops = some (a.run ops) := by
    intro ops
    induction ops with
    | nil => intro s a _ _; rfl
    | cons op ops ih =>
      intro s a hs ha
      obtain ⟨s', h1, h2⟩ := step_agrees hs ha.1
      simp only [RStack.run, h1, ih s' _ h2 ha.2, Option.map_some, AState.run]
  refine key ops RStack.new AState.init (.one ?_) h
  intro k
  exact ⟨[], .stop rfl⟩

/-- C19, said without the abstract machine: after any such history, looking a variable up changes
the outcome of no later lookup. Dropping one `ask` from a history drops its answer and nothing
else. -/
theorem C19_lookup_is_unobservable (before after : List Op) (v : Nat)
    (h : AState.init.AllAllowed (before ++ .ask v :: after)) :
    ∃ as bs r, as.length = before.length ∧
      RStack.new.run (before ++ .ask v :: after) = some (as ++ some r :: bs) ∧
      RStack.new.run (before ++ after) = some (as ++ bs) := by
  have hrun : ∀ (l : List Op) (a : AState) (r : List Op),
      a.run (l ++ r) = a.run l ++ (l.foldl (fun a op => (a.step op).2) a).run r := by
    intro l
    induction l with
    | nil => intro a r; rfl
    | cons op l ih => intro a r; simp only [List.cons_append, AState.run, List.foldl_cons, ih]
  have hall : ∀ (l : List Op) (a : AState) (r : List Op),
      a.AllAllowed (l ++ r) ↔ a.AllAllowed l ∧ (l.foldl (fun a op => (a.step op).2) a).AllAllowed r := by
    intro l
    induction l with
    | nil => intro a r; simp [AState.AllAllowed]
    | cons op l ih =>
      intro a r
      simp only [List.cons_append, AState.AllAllowed, List.foldl_cons, ih, and_assoc]
  have hlen : ∀ (l : List Op) (a : AState), (a.run l).length = l.length := by
    intro l
    induction l with
    | nil => intro a; rfl
    | cons op l ih => intro a; simp only [AState.run, List.length_cons, ih]
  have h2 : AState.init.AllAllowed (before ++ after) := by
    rw [hall] at h ⊢
    exact ⟨h.1, h.2.2⟩
  rw [C19_lookups_follow_spec _ h, C19_lookups_follow_spec _ h2, hrun, hrun]
  exact ⟨_, _, _, hlen before _, rfl, rfl⟩

theorem balancedFrom_saved : ∀ (ops : List Op) (n : Nat), BalancedFrom n ops →
    ∀ (a : AState) (own base : List (Nat → Nat)), own.length = n → a.saved = own ++ base →
      (ops.foldl (fun a op => (a.step op).2) a).saved = base := by
  intro ops
  induction ops with
  | nil =>
    intro n hb a own base hn hs
    simp only [BalancedFrom] at hb
    subst hb
    cases own with
    | nil => simpa using hs
    | cons _ _ => simp at hn
  | cons op ops ih =>
    intro n hb a own base hn hs
    cases op with
    | bind src dst =>
      cases n <;> exact ih _ hb _ own base hn hs
    | ask v =>
      cases n <;> exact ih _ hb _ own base hn hs
    | checkpoint =>
      cases n <;> exact ih _ hb _ (a.now :: own) base (by simp [hn]) (by simp [AState.step, hs])
    | restore =>
      cases own with
      | nil => subst hn; exact hb.elim
      | cons r own =>
        subst hn
        obtain ⟨now, saved⟩ := a
        simp only at hs
        subst hs
        exact ih _ hb _ own base rfl rfl

theorem balanced_saved {ops : List Op} (h : Balanced ops) (a : AState) :
    (ops.foldl (fun a op => (a.step op).2) a).saved = a.saved :=
  balancedFrom_saved ops 0 h a [] a.saved rfl rfl

/-- C19: whatever happens between a checkpoint and its restore (at the same depth), every lookup
afterwards answers as if it had not happened. -/
theorem C19_restore_undoes (before inside after : List Op) (v : Nat)
    (hbal : Balanced inside)
    (h : AState.init.AllAllowed (before ++ .checkpoint :: inside ++ .restore :: after ++ [.ask v])) :
    ∃ as bs cs r, bs.length = inside.length + 2 ∧
      RStack.new.run (before ++ .checkpoint :: inside ++ .restore :: after ++ [.ask v]) =
        some (as ++ bs ++ cs ++ [some r]) ∧
      RStack.new.run (before ++ after ++ [.ask v]) = some (as ++ cs ++ [some r]) := by
  have hrun : ∀ (l : List Op) (a : AState) (r : List Op),
      a.run (l ++ r) = a.run l ++ (l.foldl (fun a op => (a.step op).2) a).run r := by
    intro l
    induction l with
    | nil => intro a r; rfl
    | cons op l ih => intro a r; simp only [List.cons_append, AState.run, List.foldl_cons, ih]
  have hall : ∀ (l : List Op) (a : AState) (r : List Op),
      a.AllAllowed (l ++ r) ↔ a.AllAllowed l ∧ (l.foldl (fun a op => (a.step op).2) a).AllAllowed r := by
    intro l
    induction l with
    | nil => intro a r; simp [AState.AllAllowed]
    | cons op l ih =>
      intro a r
      simp only [List.cons_append, AState.AllAllowed, List.foldl_cons, ih, and_assoc]
  have hlen : ∀ (l : List Op) (a : AState), (a.run l).length = l.length := by
    intro l
    induction l with
    | nil => intro a; rfl
    | cons op l ih => intro a; simp only [AState.run, List.length_cons, ih]
  have hst : ∀ a : AState, ((.checkpoint :: inside ++ [.restore] : List Op).foldl
      (fun a op => (a.step op).2) a) = a := by
    intro a
    simp only [List.cons_append, List.foldl_cons, List.foldl_append, List.foldl_nil]
    have := balanced_saved hbal (a.step .checkpoint).2
    generalize inside.foldl (fun a op => (a.step op).2) (a.step .checkpoint).2 = b at this
    obtain ⟨bn, bs⟩ := b
    simp only [AState.step] at this
    subst this
    rfl
  have e : before ++ Op.checkpoint :: inside ++ .restore :: after ++ [.ask v] =
      before ++ ((.checkpoint :: inside ++ [.restore]) ++ (after ++ [.ask v])) := by
    simp [List.append_assoc]
  rw [e] at h ⊢
  have h2 : AState.init.AllAllowed (before ++ (after ++ [.ask v])) := by
    rw [hall, hall] at h
    rw [hall]
    refine ⟨h.1, ?_⟩
    have := h.2.2
    rwa [hst] at this
  rw [C19_lookups_follow_spec _ h, List.append_assoc before after, C19_lookups_follow_spec _ h2]
  rw [hrun before, hrun (Op.checkpoint :: inside ++ [Op.restore]), hst, hrun before, hrun after]
  generalize before.foldl (fun a op => (a.step op).2) AState.init = b
  refine ⟨AState.init.run before, b.run (Op.checkpoint :: inside ++ [Op.restore]), b.run after,
    (after.foldl (fun a op => (a.step op).2) b).now v, ?_, ?_, ?_⟩
  · rw [hlen]; simp
  · simp only [List.append_assoc]; rfl
  · simp only [List.append_assoc]; rfl

/-- A history with nested checkpoints, a chain that gets compressed inside a checkpoint, and a
restore that undoes a binding. -/
def exampleHistory : List Op :=
  [.bind 1 2, .bind 2 3, .checkpoint, .bind 3 4, .ask 1, .checkpoint, .bind 4 5, .ask 1, .restore,
   .ask 1, .restore, .ask 1, .bind 3 6, .ask 1]

example : AState.init.AllAllowed exampleHistory := by
  simp [exampleHistory, AState.AllAllowed, AState.Allowed, AState.step, AState.init]

example : RStack.new.run exampleHistory =
    some [none, none, none, none, some 4, none, none, some 5, none, some 4, none, some 3, none,
      some 6] := by
  decide

/-- The history between a checkpoint and its restore that `C19_restore_undoes` asks for. -/
example : Balanced [.bind 3 4, .checkpoint, .ask 1, .restore] := rfl

end Spade.Infer
